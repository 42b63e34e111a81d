{"id": "C01", "title": "TDMA solves its system", "statement": "For a matrix with diagonals at -2,0,2, calling TDMA (LU of the dia storage followed by the triangular sweeps) returns u with A u = b, A being the matrix that was passed in, as long as no pivot vanishes; u is the only such vector.", "quantifier": "all sizes n>=2, all coefficient arrays over any field with non-zero pivots, all right-hand sides", "why_tests_cant": "A test fixes a size and a few matrices; the claim ranges over every size, every coefficient array and every right-hand side, including the sizes at which loop boundaries meet.", "anchors": ["shenfun/la.py: TDMA.LU, TDMA.inner_solve", "shenfun/optimization/numba/tdma.py"]}
{"id": "C02", "title": "TDMA_O solves its system", "statement": "For a tridiagonal matrix (diagonals -1,0,1) the TDMA_O solver returns the unique u with A u = b whenever no pivot vanishes.", "quantifier": "all sizes n>=1, all coefficients with non-zero pivots, all right-hand sides", "why_tests_cant": "A test fixes a size and a few matrices; the claim ranges over every size, every coefficient array and every right-hand side, including the sizes at which loop boundaries meet.", "anchors": ["shenfun/la.py: TDMA_O.LU, TDMA_O.inner_solve"]}
{"id": "C03", "title": "PDMA solves its system", "statement": "For a pentadiagonal matrix (diagonals -4,-2,0,2,4) the PDMA solver returns the unique u with A u = b whenever no pivot vanishes.", "quantifier": "all sizes n>=4, all coefficients with non-zero pivots, all right-hand sides", "why_tests_cant": "A test fixes a size and a few matrices; the claim ranges over every size, every coefficient array and every right-hand side, including the sizes at which loop boundaries meet.", "anchors": ["shenfun/la.py: PDMA.LU, PDMA.inner_solve"]}
{"id": "C04", "title": "FDMA solves its system", "statement": "For a matrix with diagonals -2,0,2,4 the FDMA solver returns the unique u with A u = b whenever no pivot vanishes.", "quantifier": "all sizes n>=4, all coefficients with non-zero pivots, all right-hand sides", "why_tests_cant": "A test fixes a size and a few matrices; the claim ranges over every size, every coefficient array and every right-hand side, including the sizes at which loop boundaries meet.", "anchors": ["shenfun/la.py: FDMA.LU, FDMA.inner_solve"]}
{"id": "C05", "title": "TwoDMA solves its system", "statement": "For an upper matrix with diagonals 0,2 the TwoDMA solver returns the unique u with A u = b whenever the main diagonal has no zero.", "quantifier": "all sizes n>=2, all coefficients with non-zero main diagonal, all right-hand sides", "why_tests_cant": "A test fixes a size and a few matrices; the claim ranges over every size, every coefficient array and every right-hand side, including the sizes at which loop boundaries meet.", "anchors": ["shenfun/la.py: TwoDMA.inner_solve"]}
{"id": "C06", "title": "ThreeDMA solves its system", "statement": "For an upper matrix with diagonals 0,2,4 the ThreeDMA solver returns u with A u = b whenever the main diagonal has no zero.", "quantifier": "all sizes n>=4, all coefficients with non-zero main diagonal, all right-hand sides", "why_tests_cant": "A test fixes a size and a few matrices; the claim ranges over every size, every coefficient array and every right-hand side, including the sizes at which loop boundaries meet.", "anchors": ["shenfun/la.py: ThreeDMA.inner_solve"]}
{"id": "C07", "title": "HeptaDMA solves its system", "statement": "For a matrix with diagonals -4,-2,0,2,4,6,8 the HeptaDMA solver returns the unique u with A u = b whenever no pivot vanishes.", "quantifier": "all sizes n>=8, all coefficients with non-zero pivots, all right-hand sides", "why_tests_cant": "A test fixes a size and a few matrices; the claim ranges over every size, every coefficient array and every right-hand side, including the sizes at which loop boundaries meet.", "anchors": ["shenfun/la.py: HeptaDMA.LU, HeptaDMA.inner_solve"]}
{"id": "C08", "title": "DiagMA solves its system", "statement": "For a diagonal matrix the DiagMA solver returns u with A u = b whenever the diagonal has no zero, and does not touch coefficients beyond the matrix size.", "quantifier": "all sizes, all non-zero diagonals, all right-hand sides", "why_tests_cant": "A test fixes a size and a few matrices; the claim ranges over every size, every coefficient array and every right-hand side, including the sizes at which loop boundaries meet.", "anchors": ["shenfun/la.py: DiagMA.inner_solve"]}
{"id": "C09", "title": "A solver object can be reused for any sequence of right-hand sides", "statement": "Constructing a banded solver once and calling it for any sequence of right-hand sides (no constraints) gives, for each call, the solution of A u = b with the original A: the LU factorisation is done exactly once and is never applied to already factored data.", "quantifier": "every matrix with non-zero pivots and every finite sequence of right-hand sides", "why_tests_cant": "A test calls the solver once or twice; the property is about every call history.", "anchors": ["shenfun/la.py: SparseMatrixSolver.__call__, BandedMatrixSolver, TDMA.perform_lu"]}
{"id": "C10", "title": "A constraint (0,val) replaces the first equation, whatever was solved before", "statement": "Calling a banded solver with constraints=((0,val),) returns the solution of the system whose first equation is replaced by u[0]=val and whose other equations are those of A; a later call without constraints solves A u = b again.", "quantifier": "every banded solver class, matrix, right-hand side and order of constrained and unconstrained calls", "why_tests_cant": "Depends on the history of calls on the same object, and on which solver class get_solver picked.", "anchors": ["shenfun/la.py: TDMA.apply_constraints, PDMA.apply_constraints, HeptaDMA.apply_constraints, TwoDMA.apply_constraints, FDMA.apply_constraints, ThreeDMA.apply_constraints"]}
{"id": "C11", "title": "A constraint (row,val) on the generic sparse solver replaces exactly that row", "statement": "SparseMatrixSolver.apply_constraints turns row `row` of the matrix into the identity row and leaves every other row unchanged.", "quantifier": "all shapes, all sets of diagonals, all rows, all scales", "why_tests_cant": "Row/diagonal arithmetic has boundary cases at every (row, diagonal) pair.", "anchors": ["shenfun/la.py: SparseMatrixSolver.apply_constraints"]}
{"id": "C12", "title": "SparseMatrix.matvec is the matrix-vector product of the dense matrix", "statement": "matvec with format 'python' computes scale times the dense matrix described by the diagonals times v, for square and rectangular shapes, and diagonals that do not fit the shape are not read out of range.", "quantifier": "all shapes (M,N), all dictionaries of diagonals, all vectors, all scales", "why_tests_cant": "Slice bounds depend on shape and diagonal in four different regimes.", "anchors": ["shenfun/matrixbase.py: SparseMatrix.matvec, SparseMatrix.diags"]}
{"id": "C13", "title": "SparseMatrix addition, subtraction, negation and scaling are the matrix operations", "statement": "The dense matrix of A+B, A-B, -A, a*A (and the in-place forms) is the corresponding combination of the dense matrices, also when the operands have different diagonals and different scales.", "quantifier": "all pairs of sparse matrices of equal shape, all scalars", "why_tests_cant": "All combinations of key sets and scales.", "anchors": ["shenfun/matrixbase.py: SparseMatrix.__add__, __iadd__, __sub__, __isub__, __mul__, __imul__, __neg__, incorporate_scale"]}
{"id": "C14", "title": "get_solver only picks a specialised solver that matches the diagonals", "statement": "Whatever set of diagonals a SparseMatrix has, get_solver returns a specialised banded solver only if the diagonals are exactly the ones the solver's storage layout assumes.", "quantifier": "all sets of diagonals", "why_tests_cant": "Infinitely many key sets; the dispatch is on the sorted key tuple.", "anchors": ["shenfun/matrixbase.py: SparseMatrix.get_solver"]}
{"id": "C15", "title": "Diagonal storage order is canonical", "statement": "The diagonals of a SparseMatrix are kept sorted by offset whatever the order of insertion, so row r of the dia storage is the r-th smallest offset.", "quantifier": "all insertion sequences", "why_tests_cant": "Insertion histories are unbounded.", "anchors": ["shenfun/matrixbase.py: SparseMatrix"]}
{"id": "C16", "title": "Simplifying a list of tensor-product matrices preserves the operator", "statement": "get_simplified_tpmatrices returns matrices whose sum is the same operator as the sum of the input list, and does not change the matrices the caller holds.", "quantifier": "all lists of tensor product matrices", "why_tests_cant": "Which matrices merge depends on all pairwise comparisons; aliasing shows only on a second use.", "anchors": ["shenfun/matrixbase.py: get_simplified_tpmatrices, TPMatrix.get_simplified"]}
{"id": "C17", "title": "extract_bc_matrices partitions the matrices", "statement": "extract_bc_matrices removes exactly the boundary matrices from the caller's list and returns exactly them, keeping order: nothing is lost or duplicated.", "quantifier": "all lists of matrices, with repetitions and equal matrices", "why_tests_cant": "Depends on equality-based removal from a list while iterating.", "anchors": ["shenfun/matrixbase.py: extract_bc_matrices"]}
{"id": "C18", "title": "Fourier padding followed by truncation is the identity", "statement": "Padding N Fourier coefficients to M>=N and truncating back returns the original coefficients, for complex and real-to-complex transforms.", "quantifier": "all N, M with M > N, both parities, all coefficient vectors (with zero-imaginary Nyquist for R2C)", "why_tests_cant": "Index ranges differ for odd/even N and at M=N.", "anchors": ["shenfun/fourier/bases.py: C2C._padding_backward, C2C._truncation_forward, R2C._padding_backward, R2C._truncation_forward"]}
{"id": "C19", "title": "Fourier padding preserves the represented function", "statement": "The padded coefficients represent the same trigonometric polynomial: the coefficient of every wavenumber |k|<N/2 is kept, the Nyquist coefficient is split between +N/2 and -N/2, all others are zero.", "quantifier": "all N, M>N, all coefficient vectors", "why_tests_cant": "All sizes and parities.", "anchors": ["shenfun/fourier/bases.py: C2C._padding_backward, R2C._padding_backward"]}
{"id": "C20", "title": "dealias_direct removes exactly the upper third of the wavenumbers", "statement": "With dealias_direct=True the backward transform uses exactly the wavenumbers with |k| < N//3 (2/3-rule): all |k| >= N//3 are removed and the others are kept.", "quantifier": "all N, all coefficient vectors", "why_tests_cant": "Boundary arithmetic of negative slices depends on N.", "anchors": ["shenfun/fourier/bases.py: C2C, R2C dealias_direct", "shenfun/spectralbase.py: SpectralBase"]}
{"id": "C21", "title": "Padded products are alias-free", "statement": "Multiplying two trigonometric polynomials of N coefficients pointwise on a padded mesh of M points and truncating gives the exact coefficients of the product for all |k| < N/2 whenever M >= floor(3N/2) (3/2-rule), and for the Nyquist wavenumber when M > 3N/2.", "quantifier": "all N, all M above the bound, all coefficient vectors", "why_tests_cant": "Quantifies over all coefficient vectors and sizes.", "anchors": ["shenfun/fourier/bases.py: FourierBase.convolve", "shenfun/spectralbase.py"]}
{"id": "C22", "title": "Domain maps are mutually inverse affine maps", "statement": "map_true_domain and map_reference_domain are inverse to each other, affine with slope domain_factor, and send end points to end points (the right one exactly, or within 1e-12 if the lengths of the domains differ by less than 1e-12).", "quantifier": "all non-degenerate reference and true domains, all points", "why_tests_cant": "Real-valued domains and points.", "anchors": ["shenfun/spectralbase.py: map_reference_domain, map_true_domain, domain_factor"]}
{"id": "C23", "title": "energy_fourier satisfies Parseval", "statement": "energy_fourier of the R2C coefficients equals the sum of |u_k|^2 over the full complex spectrum, on any number of processes.", "quantifier": "all N (odd and even), all coefficient vectors, all distributions over processes", "why_tests_cant": "Parity-dependent weights; process distributions.", "anchors": ["shenfun/utilities/__init__.py: energy_fourier"]}
{"id": "C24", "title": "outer product", "statement": "outer(a,b,c) sets c[i*ndim+j]=a[i]*b[j] for every component, also in the symmetric case a is b and independently of the previous content of c.", "quantifier": "all a, b and all prior contents of the output array", "why_tests_cant": "The prior contents of the work array is a hidden input.", "anchors": ["shenfun/utilities/__init__.py: outer, outer2D, outer3D", "shenfun/optimization/cython/outer.pyx"]}
{"id": "C25", "title": "cross product", "statement": "cross(c,a,b) is the algebraic cross product, component i being sum eps_ijk a_j b_k: bilinear, antisymmetric and orthogonal to both arguments.", "quantifier": "all vectors", "why_tests_cant": "All real inputs.", "anchors": ["shenfun/utilities/__init__.py: cross2D, cross3D"]}
{"id": "C26", "title": "Boundary condition specifications are parsed to the same conditions", "statement": "Every accepted way of writing boundary conditions (string, tuple, dict) yields the conditions described, ordered left-then-right with derivatives scaled to the reference domain.", "quantifier": "all specifications, all domains", "why_tests_cant": "Combinatorial set of names and values.", "anchors": ["shenfun/spectralbase.py: BoundaryConditions"]}
{"id": "C27", "title": "Composite Chebyshev and Legendre bases satisfy their homogeneous boundary conditions", "statement": "Every basis function phi_i, i < dim(), of every composite Chebyshev and Legendre space satisfies at x=-1 and x=1 the homogeneous boundary conditions the class is declared with.", "quantifier": "all composite classes, all sizes N, all basis indices i", "why_tests_cant": "Infinitely many basis functions.", "anchors": ["shenfun/chebyshev/bases.py: ShenDirichlet, ShenNeumann, ShenBiharmonic", "shenfun/legendre/bases.py"]}
{"id": "C28", "title": "Hard-coded Chebyshev matrices are the inner products they claim to be", "statement": "For test and trial spaces of equal size, the diagonals hard-coded for the Chebyshev mass, derivative, stiffness and biharmonic matrices are accepted as a matrix of the right shape and every entry is the weighted inner product of the test function with the stated derivative of the trial function.", "quantifier": "all sizes N, all rows and columns, every hard-coded matrix class, every inner product in which the Chebyshev polynomials are orthogonal with the norms the space reports", "why_tests_cant": "Tests compare with quadrature for a few sizes in floating point.", "anchors": ["shenfun/chebyshev/matrices.py"]}
{"id": "C29", "title": "Time steppers take the expected steps", "statement": "solve(u,u_hat,dt,(t0,t_end)) performs exactly n steps when t_end=t0+n*dt (dt > 1e-8), also when the accumulated rounding error of the time stays below 1e-8, and calls update after every step with t0+k*dt and k, for every stepper; for other t_end it takes the least n with t0+n*dt >= t_end-1e-8.", "quantifier": "all t0, dt, n", "why_tests_cant": "Loop on floating time variable, all n.", "anchors": ["shenfun/utilities/integrators.py: IntegratorBase subclasses"]}
{"id": "C30", "title": "RK4 is the classical fourth order Runge-Kutta method", "statement": "One RK4 step applies the classical scheme to N(u)+L u, for every linear part L the user may return (array of factors or number); for linear problems it multiplies by the degree-4 Taylor polynomial of exp.", "quantifier": "all states, all right-hand sides, all dt", "why_tests_cant": "All nonlinear right-hand sides.", "anchors": ["shenfun/utilities/integrators.py: RK4.solve"]}
{"id": "C31", "title": "Expr arithmetic denotes the arithmetic of forms", "statement": "For any Expr, the value of e+f, e-f, -e, a*e, e.simplify() is the corresponding combination of the values, whatever the number of terms.", "quantifier": "all expressions, all functions", "why_tests_cant": "Expression trees are unbounded.", "anchors": ["shenfun/forms/arguments.py: Expr.__add__, __sub__, __neg__, __mul__, simplify"]}
{"id": "C32", "title": "Dx, grad, div, curl denote the differential operators", "statement": "Dx applies the product rule correctly, so the value of Dx(e,x,k) is the k-th partial derivative of the value of e; grad, div and curl are the Cartesian operators, and div(curl)=0, curl(grad)=0.", "quantifier": "all expressions, all orders k, all dimensions", "why_tests_cant": "Unbounded expressions and orders.", "anchors": ["shenfun/forms/operators.py: Dx, grad, div, curl"]}
{"id": "C33", "title": "Indexing a composite function selects the right components", "statement": "u[i] of a function on a (nested) composite space is a view of exactly the scalar components of the i-th subspace: views of different i are disjoint and together cover u.", "quantifier": "all nested composite spaces, all indices", "why_tests_cant": "Unbounded nesting.", "anchors": ["shenfun/forms/arguments.py: ShenfunBaseArray.__getitem__, BasisFunction.__getitem__", "shenfun/tensorproductspace.py: CompositeSpace.flatten"]}
{"id": "C34", "title": "Flattening dofs is lossless", "statement": "copy_to_flattened followed by copy_from_flattened restores all degrees of freedom; the block offsets partition [0,total dofs).", "quantifier": "all lists of block sizes, all functions", "why_tests_cant": "All block layouts.", "anchors": ["shenfun/forms/arguments.py: Function.copy_to_flattened, copy_from_flattened", "shenfun/tensorproductspace.py: CompositeSpace._get_ndiag_cum_dofs"]}
{"id": "C35", "title": "Solving along an axis solves every line independently", "statement": "solver(b,axis=k) on a multidimensional array returns the array whose every line along axis k is the one-dimensional solution for that line.", "quantifier": "all shapes, all axes, all right-hand sides", "why_tests_cant": "All shapes and axes.", "anchors": ["shenfun/la.py: TDMA.Solve, BandedMatrixSolver.solve", "shenfun/optimization/numba/la.py"]}
{"id": "C36", "title": "The Kronecker (tensor product) matrix acts axis by axis", "statement": "TPMatrix.matvec applies each one-dimensional matrix along its axis, and agrees with the assembled Kronecker matrix.", "quantifier": "all shapes, matrices and arrays", "why_tests_cant": "All shapes.", "anchors": ["shenfun/matrixbase.py: TPMatrix.matvec, TPMatrix.diags"]}
{"id": "C37", "title": "Slices of degrees of freedom", "statement": "slice()/dim() of a composite basis select exactly the N minus number-of-boundary-conditions coefficients and boundary dofs occupy the remaining ones.", "quantifier": "all N and numbers of boundary conditions", "why_tests_cant": "All sizes.", "anchors": ["shenfun/spectralbase.py: CompositeBase.slice, dim, BoundaryValues"]}
{"id": "C38", "title": "Clenshaw/recursive evaluation equals the sum", "statement": "Evaluating a Jacobi/Chebyshev series by recursion returns the sum of coefficient times polynomial.", "quantifier": "all coefficient vectors, all points", "why_tests_cant": "All lengths and points.", "anchors": ["shenfun/optimization/numba/transforms.py", "shenfun/optimization/cython/transforms.pyx"]}
{"id": "C39", "title": "wrap_periodic", "statement": "wrap_periodic returns, for every array and all requested axes, the periodic extension of the array by one entry along these axes.", "quantifier": "all arrays and axes", "why_tests_cant": "All shapes.", "anchors": ["shenfun/utilities/__init__.py: wrap_periodic"]}
{"id": "C40", "title": "Cached work arrays", "statement": "Indexing the cached work-array dictionary with the same key returns the same array, zeroed when requested, and never returns one array for two different keys.", "quantifier": "all access histories", "why_tests_cant": "Access histories are unbounded.", "anchors": ["shenfun/utilities/__init__.py: CachedArrayDict"]}
{"id": "C41", "title": "SolverGeneric1ND solves the tensor product system", "statement": "For tensor product matrices with one non-diagonal axis, solving every line with the one-dimensional matrix that SolverGeneric1ND assembles for that line gives an array u with sum_m A_m u = b.", "quantifier": "all dimensions, shapes, lists of matrices, scales (wavenumber dependent) and right-hand sides", "why_tests_cant": "Tests use a handful of PDEs and meshes; the claim is for every list of matrices, every wavenumber and size.", "anchors": ["shenfun/la.py: SolverGeneric1ND.assemble, solve, fast_solve", "shenfun/matrixbase.py: SparseMatrix.__iadd__, __mul__"]}
{"id": "C42", "title": "IMEX Runge-Kutta classes implement their scheme with the stated order", "statement": "One step of compute_rhs/solve_step over all stages of IMEXRK011/111/222/443 and IMEXRK3/IRK3 is a step of the implicit-explicit Runge-Kutta method given by the tableaux, for every mass matrix, linear operator and nonlinear term; on the linear test equation the orders are 1 (111), 2 (222), 3 (443) and 3 (IMEXRK3, IRK3: documented 'third order').", "quantifier": "all right-hand sides, operators, time steps, contents of work arrays", "why_tests_cant": "Order is an asymptotic statement; all operators.", "anchors": ["shenfun/utilities/integrators.py: PDEIMEXRK, IMEXRK3, IRK3"]}
{"id": "C43", "title": "Exponential integrators use the right weights", "statement": "ETD takes exponential Euler steps and ETDRK4 steps of the Cox-Matthews method with the phi-functions of dt*L, up to a stated tiny quadrature error, for every linear operator (real or complex); without nonlinear term both are exact.", "quantifier": "all operators, all right-hand sides, all dt", "why_tests_cant": "Continuum of operators; quadrature error bound.", "anchors": ["shenfun/utilities/integrators.py: ETD, ETDRK4"]}
{"id": "C44", "title": "BackwardEuler takes first order implicit Euler steps", "statement": "Each step of BackwardEuler solves (M-dt L)u_new = M u + dt N(u), up to terms that keep first order.", "quantifier": "all operators, all right-hand sides, all steps", "why_tests_cant": "All histories of steps.", "anchors": ["shenfun/utilities/integrators.py: BackwardEuler"]}
{"id": "C45", "title": "Changing the time step rebuilds the solvers", "statement": "After any sequence of solve calls with any time steps the solver used belongs to the time step of the current call (within 1e-12); assembling an IMEX object again after changing dt uses the new dt.", "quantifier": "all sequences of calls", "why_tests_cant": "Histories of calls.", "anchors": ["shenfun/utilities/integrators.py: setup, solve, assemble, solve_step"]}
{"id": "C46", "title": "A time step depends only on the current solution", "statement": "The result of a step does not depend on what earlier runs left in the integrator's work arrays, and solving in two parts equals solving at once.", "quantifier": "all work array contents, all splits", "why_tests_cant": "Histories of runs.", "anchors": ["shenfun/utilities/integrators.py"]}
{"id": "C47", "title": "Composite bases of the other Jacobi families satisfy their homogeneous boundary conditions", "statement": "Every basis function of the composite classes of chebyshevu, ultraspherical, gegenbauer and jacobi satisfies the homogeneous boundary conditions the class is declared with, for all admissible parameters alpha, beta, lambda.", "quantifier": "all sizes N, basis indices and family parameters", "why_tests_cant": "Continuum of parameters and infinitely many functions.", "anchors": ["shenfun/chebyshevu/bases.py", "shenfun/ultraspherical/bases.py", "shenfun/gegenbauer/bases.py", "shenfun/jacobi/bases.py"]}
{"id": "C48", "title": "Composite bases represent exactly the polynomials satisfying their boundary conditions", "statement": "The dim() basis functions of a composite space of size N form a basis of the space of all polynomials of degree less than N that satisfy the homogeneous boundary conditions: every such polynomial has exactly one coefficient vector.", "quantifier": "all sizes N, all polynomials", "why_tests_cant": "Statement about a whole function space for every N.", "anchors": ["shenfun/chebyshev/bases.py", "shenfun/legendre/bases.py", "shenfun/chebyshevu/bases.py", "shenfun/spectralbase.py: getCompositeBase"]}
{"id": "C49", "title": "Generic stencils and boundary bases satisfy the requested boundary conditions", "statement": "For any list of boundary conditions (derivatives of any order, Robin and W conditions at either end), the stencil computed by get_stencil_matrix gives basis functions satisfying the homogeneous conditions, is the only such stencil with unit leading coefficient, and get_bc_basis returns the dual basis: function i has value 1 on condition i and 0 on all other conditions. bnd_values returns the true k-th derivatives of every family at both ends.", "quantifier": "all condition lists, all derivative orders, all families and Jacobi parameters, all indices n", "why_tests_cant": "Symbolic solve for a general index n and arbitrary condition lists; tests check a handful of conditions and sizes.", "anchors": ["shenfun/utilities/findbasis.py: get_stencil_matrix, get_bc_basis, n", "shenfun/jacobi/recursions.py: bnd_values", "shenfun/spectralbase.py: BoundaryConditions"]}
{"id": "C50", "title": "to_ortho preserves the represented function", "statement": "Converting the coefficients of a composite function (with homogeneous or inhomogeneous boundary data) to the orthogonal basis gives coefficients of the same polynomial, including the boundary lift.", "quantifier": "all coefficient vectors, all stencils, all boundary values, all sizes N", "why_tests_cant": "Linear identity over all coefficient arrays, all stencils and sizes.", "anchors": ["shenfun/spectralbase.py: CompositeBase.to_ortho, _add_to_orthogonal", "shenfun/spectralbase.py: BoundaryBase"]}
{"id": "C51", "title": "Orthogonality and squared norms of every polynomial family", "statement": "Two different members of an orthogonal family (Legendre, Chebyshev of both kinds, ultraspherical, Gegenbauer, Jacobi) have zero inner product in the family's weight, and the inner product of a member with itself is what `L2_norm_sq` returns; likewise `h(alf,bet,n,k,gn)` is the squared norm of the k-th derivative in the weight with both exponents raised by k.", "quantifier": "All indices, all Jacobi parameters above -1, all derivative orders.", "why_tests_cant": "The statement is an identity of integrals with real parameters for infinitely many indices.", "anchors": ["shenfun/jacobi/recursions.py:gamma,psi,h", "shenfun/chebyshev/bases.py:L2_norm_sq", "shenfun/legendre/bases.py:L2_norm_sq", "shenfun/chebyshevu/bases.py:L2_norm_sq", "shenfun/ultraspherical/bases.py:L2_norm_sq", "shenfun/gegenbauer/bases.py:L2_norm_sq", "shenfun/jacobi/bases.py:L2_norm_sq"]}
{"id": "C52", "title": "Recursion matrices represent multiplication, antiderivative and weighted derivative", "statement": "Column n of `pmat(a, q, alf, bet, M, N, gn)` holds the coefficients of x^q Q_n in the family Q; column n of `pmat(b, q, ...)` holds coefficients such that Q_n is the sum of them times the q-th derivatives of Q_m, with zero first q rows; column n of `pmat(c, q, ...)` gives ((1-x^2)d/dx)^q Q_n; column n of `a_mat(a_, k, q, ...)` gives x^q times the k-th derivative of Q_n in terms of k-th derivatives.", "quantifier": "All powers q, derivative orders k, indices n < N with n+q < M, all families with parameters above -1.", "why_tests_cant": "Identities between polynomials for every index, power and real parameter.", "anchors": ["shenfun/jacobi/recursions.py:_a,_b,_c,matpow,_matpow,pmat,a_,a_mat"]}
{"id": "C53", "title": "ShiftedMatrix and Lmat", "statement": "Entry (m,n) of `ShiftedMatrix(A, q, r, s, M, N)` is entry (m+r, n+s) of A; entry (m,n) of `Lmat(k, q, l, M, N, alf, bet, gn)` is the inner product of the (k-l)-th derivative of Q_n with x^q phi_m^(k) in the family's weight, phi_m^(k) = (1-x^2)^k d^k Q_{m+k} / h.", "quantifier": "All shifts, shapes, entries, powers q, 1 <= k, l <= k, all families with parameters above -1.", "why_tests_cant": "Needs index arithmetic on diagonals for all sign combinations and integrals for every index.", "anchors": ["shenfun/jacobi/recursions.py:ShiftedMatrix,Lmat,h"]}
{"id": "C54", "title": "Stencil-assembled matrices are the Galerkin matrices on the true domain", "statement": "inner_product((test, t), (trial, r), measure) assembled through the stencil method returns a matrix whose entry (i, j) is the weighted integral over the true domain of measure * D^t psi_i * D^r phi_j, where psi_i, phi_j are the basis functions on the true domain; assemble='exact' gives the same entries.", "quantifier": "all Jacobi-type families, all composite stencils, all sizes, all domains, all derivative orders, all polynomial measures, all entries", "why_tests_cant": "Tests compare a handful of bases at one size and mostly on (-1, 1); the entry formula must hold for every size, measure degree and domain.", "anchors": ["shenfun/matrixbase.py:_assemble_stencil", "shenfun/matrixbase.py:SpectralMatrix.__init__", "shenfun/spectralbase.py:inner_product", "shenfun/matrixbase.py:_get_matrix"]}
{"id": "C55", "title": "extract_diagonal_matrix keeps every non-negligible diagonal of the band", "statement": "extract_diagonal_matrix(M, lowerband, upperband, abstol, reltol) agrees with M on every entry of the band up to the tolerances, and is exactly M when M vanishes outside the band and the tolerances are not met by nonzero diagonals.", "quantifier": "all dense matrices, all shapes, all bands, all tolerances", "why_tests_cant": "The dropped entries depend on global maxima; tests use matrices whose band structure is known.", "anchors": ["shenfun/matrixbase.py:extract_diagonal_matrix"]}
{"id": "C56", "title": "Hard-coded Legendre matrices equal their inner products", "statement": "For every number of quadrature points, every matrix registered for pairs of Legendre bases (mass, stiffness, derivative and biharmonic matrices for Orthogonal, ShenDirichlet, ShenNeumann, ShenBiharmonic, DirichletNeumann, BeamFixedFree, UpperDirichlet and LowerDirichlet, with or without weight 1+x or (1+x)**2) has exactly the entries (D^m v_k, w D^n u_j) of the L2 inner product (mass matrices: of any inner product with the norms that are passed), with diagonals of the correct length, under every key it is registered for.", "quantifier": "all N (also different sizes of test and trial space where the class supports it), all rows and columns", "why_tests_cant": "Entries are closed-form functions of the index; a test compares finitely many N with quadrature.", "anchors": ["shenfun/legendre/matrices.py", "shenfun/legendre/bases.py:Orthogonal", "shenfun/spectralbase.py:get_norm_sq"]}
{"id": "C57", "title": "Differential operators in curvilinear coordinates", "statement": "For every regular coordinate system (symbolic position vector), with normal or covariant basis vectors, the vector or tensor whose components are returned by grad, div and curl is, expressed in Cartesian components, the Cartesian gradient, divergence or curl of the argument; in particular div(grad(u)) is the Laplacian.", "quantifier": "all coordinate maps with invertible metric tensor in any dimension, all expressions, both settings of basisvectors", "why_tests_cant": "Coordinate maps and expressions are arbitrary symbolic objects.", "anchors": ["shenfun/forms/operators.py: grad, div, curl", "shenfun/coordinates.py: Coordinates", "shenfun/forms/arguments.py: Expr.get_contravariant_component"]}
{"id": "C58", "title": "Boundary values follow the time of the last update", "statement": "After any sequence of calls of update on the boundary values of a space, the last one with a time t, the boundary data in use are the prescribed expressions evaluated at t.", "quantifier": "all boundary data, all histories of update calls", "why_tests_cant": "Histories are unbounded.", "anchors": ["shenfun/tensorproductspace.py: BoundaryValues.update"]}
{"id": "C59", "title": "Legendre/Chebyshev coefficient conversion", "statement": "leg2cheb and cheb2leg return coefficients of the same function in the other family (sum v_k T_k(x) = sum c_n P_n(x) for all x), are inverse to each other, transpose=True gives the transposed map, and the multidimensional objects give the one-dimensional result along the axis.", "quantifier": "all lengths N, all real, complex or multidimensional coefficient arrays, all x", "why_tests_cant": "Both N and the coefficients are unbounded; the entries are quotients of Gamma functions indexed by row and offset.", "anchors": ["shenfun/legendre/dlt.py: leg2cheb, cheb2leg, FMMLeg2Cheb, FMMCheb2Leg", "shenfun/optimization/cython/transforms.pyx: _leg2cheb, _cheb2leg, FMMdirect1, FMMdirect4", "shenfun/optimization/cython/leg2chebm.pyx"]}
{"id": "C60", "title": "Fast (hierarchical) Legendre/Chebyshev conversion agrees with the direct one", "statement": "For every length N above use_direct, every number of levels, domains per level, submatrix size and number of diagonals, every array (any number of dimensions, any dtype) and both directions and the transpose: each coefficient returned by Leg2Cheb/Cheb2Leg (and FMMLeg2Cheb) differs from the one of the direct O(N^2) conversion by at most a constant times the accuracy with which the low-rank submatrices represent the kernel, times the sum of the absolute inputs; each matrix entry on or above the diagonal is used exactly once (near diagonals, near blocks or one submatrix of one level), padding never changes the answer, and the level-to-level conversion matrices are exact. Precondition: the rank kept for a submatrix is at most the number of modes kept on its own and every finer level.", "quantifier": "all N, all level/domain layouts, all ranks meeting the precondition, all input arrays, both parities, both directions", "why_tests_cant": "The number of levels, blocks, submatrices and the padding depend on N and the layout; tests check a handful of sizes at default options.", "anchors": ["shenfun/optimization/cython/transforms.pyx:FMMcheb", "shenfun/optimization/cython/leg2chebm.pyx:Leg2Cheb", "shenfun/legendre/dlt.py:FMMLevel", "shenfun/legendre/dlt.py:conversionmatrix", "shenfun/legendre/dlt.py:getChebyshev"]}
{"id": "C61", "title": "Chebyshev transforms: fast DCT/DST code equals the quadrature definition and inverts", "statement": "For first-kind Chebyshev spaces with quadrature GC or GL and second-kind spaces with GU or GC, any number of coefficients N, any padded number of points, and any array: backward (one DCT/DST with the scalings in the code) returns sum_k u_k T_k(x_j) (resp. U_k) at the points returned by points_and_weights; scalar_product returns sum_j w_j u_j T_k(x_j); forward followed by backward and backward followed by forward are the identity (when the number of points equals N), forward reproduces the coefficients of every polynomial of degree below N, and the quadrature norms used by forward are the discrete ones. Refuted: a padded GL transform (last coefficient halved), first kind with quad GU, and a padding that is not an integer number of points.", "quantifier": "all N, all padded sizes, all input arrays (real or complex, any further axes), all coefficient and point indices", "why_tests_cant": "The identities are trigonometric orthogonality relations that depend on N and the mode; tests compare floating-point values at a few N.", "anchors": ["shenfun/chebyshev/bases.py:Orthogonal", "shenfun/chebyshevu/bases.py:Orthogonal", "shenfun/spectralbase.py:SpectralBase.forward"]}
{"id": "C62", "title": "Chebyshev quadrature points and weights integrate exactly", "statement": "For every N the points and weights returned by points_and_weights integrate every polynomial below the advertised degree exactly against the Chebyshev weight (GC and GU: degree below 2N; GL: below 2N-2, sharp), points are strictly monotone and inside [-1,1] and the unweighted weights (weighted=False) integrate every polynomial of degree below N exactly without weight; dx returns the integral over a tensor-product domain for every product of such polynomials. Refuted: the first kind with GU (not exact for constants), clenshaw_curtis1D.", "quantifier": "all N, all polynomials up to the degree, all dimensions", "why_tests_cant": "Exactness is over a whole polynomial space and every N; tests integrate one function.", "anchors": ["shenfun/chebyshev/bases.py:Orthogonal.points_and_weights", "shenfun/chebyshevu/bases.py:Orthogonal.points_and_weights", "shenfun/utilities/__init__.py:dx"]}
{"id": "C63", "title": "Quadrature-based forward/backward/scalar product of the Jacobi families", "statement": "For every Jacobi-type space (Legendre, Jacobi, ultraspherical, Chebyshev with quadrature) whose rule has the advertised exactness: the basis is orthogonal for the quadrature with the squared norms used by forward; backward of forward and forward of backward are the identity; forward returns the coefficients of every polynomial of degree below N; the unweighted weights integrate every polynomial of degree below N without weight; lagrange_poly(i) is one at point i, zero at the others. The Legendre Gauss-Lobatto points and weights computed by the code, when the Newton iteration has converged to the roots, integrate every polynomial of degree at most 2N-3 exactly, and the discrete norm of the last basis function is 2/(N-1).", "quantifier": "all N, all numbers of points, all arrays, all polynomials of degree below N, every family", "why_tests_cant": "Statement over all polynomials and every size.", "anchors": ["shenfun/spectralbase.py:SpectralBase._evaluate_scalar_product", "shenfun/jacobi/bases.py:JacobiBase.unweighted_quadrature_weights", "shenfun/jacobi/bases.py:JacobiBase.lagrange_poly", "shenfun/legendre/lobatto.py:legendre_lobatto_nodes_and_weights"]}
{"id": "C64", "title": "Fast discrete Legendre transform agrees with the definition", "statement": "For every N, every Gauss-Legendre rule in increasing order and every array, the Taylor loop of the fast Legendre transform stops after a number of passes determined by the input, and when it stops after m passes: backward differs from sum_n u_n P_n(x_j) by at most sum_n (n|dtheta_j|)^(m+1)/(m+1)! |u_n|; scalar product differs from sum_j w_j u_j P_k(x_j) by at most sum_j (k|dtheta_j|)^(m+1)/(m+1)! |w_j u_j| (forward: times k+1/2); continued without the stopping test all three converge to the exact transforms; with the hierarchical conversion its errors are added. Refuted: homogeneity - the stopping test is absolute, so for N=2 and coefficients (0, eps), eps <= 1e-16, it stops after one pass with an error above eps/1000.", "quantifier": "all N, all input arrays (further axes, real or complex parts), every number of passes, both directions", "why_tests_cant": "Convergence and stopping depend on the input; the remainder bound holds for every N and m, tests check a few N in floating point.", "anchors": ["shenfun/legendre/dlt.py:DLT", "shenfun/legendre/dlt.py:DCT", "shenfun/legendre/dlt.py:DST", "shenfun/legendre/bases.py:Orthogonal.plan"]}
{"id": "C65", "title": "Dedicated Chebyshev Poisson solver solves the Galerkin system (Dirichlet)", "statement": "For every N>=5, every nonzero scale, every right-hand side, in place or not, compiled or pure Python: the coefficients returned by the ADD solver of a ShenDirichlet stiffness matrix satisfy every Galerkin equation scale*(v_k, u'')_w = b_k. The compiled variant skips the division when |scale-1|<1e-8 and then solves the problem with scale 1.", "quantifier": "all N, all scales, all right-hand sides, all modes", "why_tests_cant": "running sums over a parity class are only checked for one size", "anchors": ["shenfun/chebyshev/la.py: ADDSolver", "optimization/numba/helmholtz.py, cython/la.pyx: Poisson_Solve_ADD_1D"]}
{"id": "C66", "title": "Dedicated Chebyshev Poisson solver (Neumann)", "statement": "For every N>=5, scale, right-hand side and mean value constraint: the ANN solver returns the constrained first coefficient and every Galerkin equation but the first one; the first one does not involve the constrained coefficient, so it is a pure compatibility condition on the data.", "quantifier": "all N, all scales, all right-hand sides, all constraint values", "why_tests_cant": "size-dependent recurrences and constraint handling", "anchors": ["shenfun/chebyshev/la.py: ANNSolver"]}
{"id": "C67", "title": "Dedicated Chebyshev Helmholtz solver", "statement": "For every N>=8: Helmholtz (numba and Cython kernels) applied to alpha u''+beta u with Dirichlet conditions solves all Galerkin equations whenever elimination is possible, in particular always when alpha*beta<=0, alpha nonzero; with Neumann conditions whenever elimination is possible (all but finitely many beta), |beta|>=1e-8 and beta*pi is not within 1e-8 of one; for beta=0 it solves all equations but the first and sets the mean to zero. Refuted: beta*pi within 1e-8 of one (regular problem treated as singular); several wavenumbers with numba when a beta=0 line is not the last one (the modification of A_0 leaks into the following lines).", "quantifier": "all N, all coefficients, all right-hand sides", "why_tests_cant": "factorisation must be right for all sizes and coefficients; the failure set is a thin set of coefficients or an ordering of wavenumbers", "anchors": ["shenfun/chebyshev/la.py: Helmholtz", "optimization/numba/helmholtz.py: LU_Helmholtz, Solve_Helmholtz", "optimization/cython/la.pyx"]}
{"id": "C68", "title": "Dedicated Chebyshev biharmonic solver", "statement": "For every even N>=14 on the reference domain: Biharmonic (numba and Cython kernels) applied to a u''''+alpha u''+beta u in the ShenBiharmonic space solves every Galerkin equation whenever elimination without pivoting is possible, in particular always when a is nonzero, a*alpha<=0 and a*beta>=0 (coercivity of the fourth and second order Chebyshev forms), and for all but finitely many multiples of any lower-order part. Refuted: an odd number of unknowns (the odd half divides by a pivot that is never written) and any domain whose factor differs from one (the factor is in the stored diagonals but not in the entries hard-wired in the kernels).", "quantifier": "all even N, all coefficients, all right-hand sides", "why_tests_cant": "the factorisation and the compressed back substitution must be right for all sizes and coefficients; tests use one or two sizes on the reference domain", "anchors": ["shenfun/chebyshev/la.py: Biharmonic", "optimization/numba/biharmonic.py: LU_oe_Biharmonic_1D, Biharmonic_factor_oe_pr, Solve_oe_Biharmonic_1D", "optimization/cython/la.pyx"]}
{"id": "C69", "title": "Optimised matrix-vector products equal the bilinear form", "statement": "For every size, scale, incorporated factor and vector v: the compiled and numpy matvec methods of the hard-coded Chebyshev and Legendre matrices (BTT, BSDSD, BSDSN, BSNSN, BSBSB, BSBSD, CSDSN, CSDSD, CTSD, CTT, CSBSD, CSDSB, ASBSB, ASDSD, ASNSN, ATT, SSBSB, Legendre CLL) return in row i the scaled form of test function i with the function whose coefficients are v and zero in the rest of the array; so do Helmholtz.matvec and Biharmonic.matvec on the reference domain; and A += B of assembled matrices is the matrix sum. Refuted: CTSD with a coefficient in the form, ASNSN with a scale other than 1 (applied twice; divided by with numba), Helmholtz.matvec and Biharmonic.matvec on any other domain, Neumann Helmholtz.matvec with the Cython kernel, BSNSN on an output array with old values, matvec after A += B, and a second A += B after A *= y.", "quantifier": "all sizes, scales, factors, vectors; all histories A += B; A *= y; A += Z", "why_tests_cant": "each kernel has its own boundary rows, running sums and hard-wired constants; tests compare a few sizes with unit scale, where the errors vanish", "anchors": ["shenfun/chebyshev/matrices.py: matvec methods", "shenfun/legendre/matrices.py: CLLmat.matvec", "shenfun/optimization/cython/Matvec.pyx", "shenfun/optimization/numba/helmholtz.py", "shenfun/chebyshev/la.py: Helmholtz.matvec, Biharmonic.matvec", "shenfun/matrixbase.py: incorporate_scale, __iadd__"]}
{"id": "C70", "title": "Fourier matrices are the matrices of their forms", "statement": "inner(v, D^r u) with D^t v on a Fourier space: for every number of points, domain, orders t and r and constant coefficient the matrix is diagonal with entries 1/L int phi_k^(r) conj(phi_k^(t)) dx, and its solve never yields an infinite value, returns zero at the zero wavenumber of a differentiated form and the solution elsewhere. The tabulated variable-coefficient matrices (weights cos, sin, cos^2, sin(2x)/2 on C2C) are the quadrature matrices of their forms on (0, 2 pi) for N>=3 (N != 4 for the two-step ones), and agree with the integrals between modes that do not wrap around. Refuted: for assemble='exact' they contain the aliasing coupling of N/2-1 and -N/2; with N=4 (two-step) and N=2 (one-step) repeated dictionary keys lose a term; on every domain of length other than 2 pi they are off by the domain factor.", "quantifier": "all N, pairs of modes, domains, derivative orders, coefficients, scales, right-hand sides", "why_tests_cant": "the statement is about every entry for every N and domain; tests use N=8 or so on (0, 2 pi)", "anchors": ["shenfun/fourier/matrices.py", "shenfun/fourier/bases.py: wavenumbers", "shenfun/matrixbase.py: SpectralMatrix.__init__"]}
{"id": "C71", "title": "Hermite functions: derivatives, orthonormality, matrices, transforms, solver", "statement": "The Hermite basis functions are H_n exp(-x^2/2)/(pi^(1/4) sqrt(2^n n!)); evaluate_basis_derivative_all returns their derivatives for orders 0..2 and refuses higher ones; they are orthonormal on the line and, at any Gauss-Hermite rule with enough points, also discretely, so that forward(backward(c)) = c with any padding. The mass matrix is the identity. The stiffness matrix is that of the N-point quadrature; all entries but the last diagonal one are the integrals (refuted for the last one, also for assemble='exact'). matvec(format='self') multiplies by the matrix. solve returns the solution for an even number of points; for every odd number the matrix is singular and the solver divides by zero.", "quantifier": "all N, all derivative orders, all points, all coefficient arrays, every Gauss-Hermite rule", "why_tests_cant": "every N and every coefficient array are meant; the singular odd sizes and the last entry show only when these are compared with the integral", "anchors": ["shenfun/hermite/bases.py", "shenfun/hermite/matrices.py"]}
{"id": "C72", "title": "Laguerre functions: derivatives, orthonormality, composite bases, matrices, transforms", "statement": "The Laguerre basis functions are L_n exp(-x/2); they are orthonormal on (0,inf) and at every Gauss-Laguerre rule with enough points, so forward(backward(c)) = c with any padding and the mass matrix is the identity. evaluate_basis_derivative returns the derivatives of orders 0..4, evaluate_basis_derivative_all those of orders 0,1,2,4 and refuses higher ones. bnd_values are the values and first derivatives at the origin; CompactDirichlet and CompactNeumann satisfy their condition and every function of the space that satisfies it has exactly one expansion. The tabulated Dirichlet mass and stiffness matrices are the integrals. Refuted: evaluate_basis_derivative_all(k=3) has a wrong sign (off by a quarter of the function); evaluate_basis_derivative with k>4 silently returns the function itself.", "quantifier": "all N, indices, points, orders, coefficient arrays, every Gauss-Laguerre rule", "why_tests_cant": "every order, index and point is meant, tests sample a few; the wrong sign is in a branch no test calls", "anchors": ["shenfun/laguerre/bases.py", "shenfun/laguerre/matrices.py"]}
{"id": "C73", "title": "Two-dimensional Legendre Helmholtz solver (Helmholtz_2dirichlet)", "statement": "legendre.la.Helmholtz_2dirichlet: with correct eigenvalue routines the default solver returns the one solution of a0 BUB + a1 AUB + a2 BUA = F when a1*A is the identity and a2 = a1, and solver=0 when a1 = a2 = 1; any number of calls with the same solver return what a new object returns. Refuted: solver=0 ignores the scales and is wrong for the form inner(v, -div(grad(u))) of the demo; the default solver is wrong when the first axis is not on the reference domain; solver=0 followed by solver=1 on the same object reuses the wrong eigenvectors silently; solver=1 followed by solver=0 raises.", "quantifier": "all sizes, matrices, scales, right-hand sides, correct eigen decompositions and call histories", "why_tests_cant": "tests solve one isotropic problem on (-1,1)^2 with the default solver; the claim is about all scales, domains and call sequences", "anchors": ["shenfun/legendre/la.py: Helmholtz_2dirichlet"]}
{"id": "C74", "title": "Direct sparse solvers: constraints and histories of calls", "statement": "Solver2D/Solver3D/SolverND and (for every wavenumber) BlockMatrixSolver: in every history of calls that constrain the same rows, each call returns the solution of A u = b in which exactly the constrained equations are replaced by u[row] = val; a first call that raised because the matrix is singular can be repeated with constraints. SolverGeneric2ND without constraints solves A u = b on the degrees of freedom and touches nothing else. Refuted, with exact description of what is computed: calls whose constrained rows differ from those of the first call; Solver2D.matvec after a constrained solve; SolverGeneric2ND with a constraint (whole rows or planes of b are overwritten, for other wavenumbers too; for row > 0 the value is not used); the second call of BlockMatrixSolver with constraints on purely Fourier spaces (solves the unconstrained matrix, raises when it is singular).", "quantifier": "all matrices, sizes, right-hand sides, constraint lists and finite call histories", "why_tests_cant": "tests make one constrained call per solver with right-hand sides whose overwritten entries are zero; the claim is about all right-hand sides and call sequences", "anchors": ["shenfun/la.py: Solver2D, Solver3D, SolverND, SolverGeneric2ND, BlockMatrixSolver"]}
{"id": "C75", "title": "Block matrices hold the sum of what they are given", "statement": "BlockMatrix(mats) holds in block (i,j) matrices whose sum is the sum of the given matrices with global index (i,j); A + B has the sums of the blocks; matvec computes, for component i, the sum over j of block (i,j) applied to v[j]; the caller's matrices are untouched when they are copied by the simplification. Refuted: A + B changes A (matrices are merged in place); BlockMatrix([A,A,A]) of all-Fourier matrices is 4A; A += B binds A to None; a block matrix that has been assembled keeps using the old assembly after __iadd__.", "quantifier": "all numbers of components and axes, all lists of assembled tensor product matrices, all vectors", "why_tests_cant": "tests build a handful of block matrices without merges inside a block and do not look at the operands afterwards; aliasing and merging depend on the list", "anchors": ["shenfun/matrixbase.py: BlockMatrix.__init__, __add__, __iadd__, get_mats, matvec, assemble"]}
{"id": "C76", "title": "Projection solves the mass system", "statement": "project(uh, T) of an expression and Project(uh, T)() return the u with B u = (uh, v), B the mass matrix. Proved for the two-non-periodic-axes branch with one mass term, unit scale and no Fourier axis; for the purely Fourier case (zero where the diagonal vanishes); for Project's shortcut that skips product and solve when the matrices along the only non-diagonal axis are equal. Refuted, with the exact result: with one Fourier and two non-periodic axes the result is multiplied by the Fourier mass (2 pi, or the domain length) and by the scale of the mass matrix; mass matrices after the first are ignored (curvilinear measures with several terms).", "quantifier": "all tensor product mass matrices, numbers of axes, sizes and right-hand sides", "why_tests_cant": "tests project in 2D with unit mass scale, or in 3D with at most one non-periodic axis", "anchors": ["shenfun/forms/project.py: project, Project"]}
{"id": "C77", "title": "Checkpoints survive a stop at any point", "statement": "Checkpoint.update on an object that has already read or written its file: whatever the order in which the processes write their slices, and wherever the machine stops, one of <name>.chk.h5 and <name>.old.chk.h5 holds, whole and closed, the checkpoint of the calls finished before; after a finished call, read gives every process (any distribution) the arrays, time and step of that call; a file killshenfun seen by any process makes all processes write a checkpoint and stop. Refuted: an object that has not called read truncates the existing file at its first update, and when it is time for a checkpoint overwrites the old file with the empty one; the attributes t and tstep do not tell a finished from an unfinished file; continuing from an unfinished file copies it over the good old one; of a list of arrays under a name only the last is stored.", "quantifier": "all histories of calls, numbers of processes, distributions, interleavings of the writes, and crash points", "why_tests_cant": "tests write once and read back; crash points and interleavings are not exercised", "anchors": ["shenfun/io/__init__.py: Checkpoint.update, Checkpoint.write, Checkpoint.read, Checkpoint.check_if_kill"]}
{"id": "C78", "title": "XDMF files describe the grid of the data", "statement": "generate_xdmf writes, for every data set, origins and spacings (or coordinate arrays of matching length) of the grid the data live on, and one grid per declared time step. Proved: 3D arrays, 2D arrays in Paraview order, in-plane spacings of a single slice, position of slices along a periodic axis, all cases with stored coordinates. Refuted: 2D arrays with the default order='visit' (each length is divided by the number of points of the other axis; right iff the array is square); the position of a slice along a non-periodic axis (right only for index 0); with several slices in a file the spacing along the normal of an earlier slice is that of a periodic axis; the number of grids equals the number of declared times only if the slice was written whenever anything was.", "quantifier": "all domains, shapes, axes, slices, periodicity flags and sets of written time steps", "why_tests_cant": "tests only check that the files are generated; nothing reads the numbers back", "anchors": ["shenfun/io/generate_xdmf.py: generate_xdmf, get_geometry"]}
{"id": "C79", "title": "Hard-coded matrices of Chebyshev polynomials of the second kind are the inner products", "statement": "The matrices inner() takes from the table of the chebyshevu module have as entries the weighted inner products of the (derivatives of the) basis functions they are registered for, with zero outside the stored diagonals: mass matrix of U, second-derivative and mass matrices of first-kind ShenDirichlet and ShenNeumann against second-kind Phi1, scaled or unscaled.", "quantifier": "all sizes N, both scalings, both quadratures (mass matrix), all rows and columns", "why_tests_cant": "a test checks a few sizes against quadrature up to rounding; the closed formulas must hold for every index and size", "anchors": ["shenfun/chebyshevu/matrices.py: BUUmat, AP1SDmat, AP1SNmat, BP1SDmat, BP1SNmat"]}
{"id": "C80", "title": "The compiled solvers do what the Python solvers do", "statement": "With the default optimization mode the banded solvers return, for one-, two- and three-dimensional C-contiguous arrays and along every axis, what the Python solvers return, i.e. the solution of the banded system for every line; entries beyond the size of the matrix and memory outside the array are untouched; for the solvers with one matrix per line the same holds line by line, with the zero line skipped on demand. Refuted: arrays with four or more dimensions are silently returned unsolved; the diagonal solver divides the entries beyond the matrix (two and three dimensions) by memory after the diagonal; the tridiagonal solver with a 1x1 matrix writes before the array.", "quantifier": "all sizes (at least the minimal size of the solver), shapes, axes, base addresses, strides, matrices and right-hand sides, all contents of the rest of the memory", "why_tests_cant": "pointer arithmetic without bounds checks: a wrong stride or index corrupts memory only for some shapes; tests compare a few shapes", "anchors": ["shenfun/optimization/cython/la.pyx: XXX_Solve, XXX_inner_solve_ptr, Solve_axis_2D, Solve_axis_3D, SolverGeneric1ND_solve_2D, SolverGeneric1ND_solve_3D, DiagMA_Solve", "shenfun/optimization/__init__.py: optimizer"]}
{"id": "C81", "title": "Masking Nyquist coefficients multiplies by the mask and touches nothing else", "statement": "mask_nyquist / apply_mask sets exactly the coefficients to zero where the mask (broadcast over the trailing axes, for scalar, vector and tensor fields alike) is zero, keeps all others and writes no memory outside the array. Proved for the Python version and, for the compiled default version, for all shapes except tensor fields (two leading axes) over one- or three-dimensional spaces with u.shape[1] != u.shape[2]. Refuted there: over a one-dimensional space coefficients stay unmasked; over a three-dimensional space memory directly behind the array is overwritten with zeros.", "quantifier": "all shapes and dimensions, all 0/1 masks of any broadcastable shape, all contents of array and memory", "why_tests_cant": "compiled loops without bounds checks: wrong loop bounds show only for particular shapes, as silent corruption", "anchors": ["shenfun/optimization/cython/applymask.pyx", "shenfun/utilities/__init__.py: apply_mask", "shenfun/tensorproductspace.py: mask_nyquist"]}
{"id": "C82", "title": "Evaluation at points gives the value of the expansion", "statement": "eval(points, u_hat) of a one-, two- or three-dimensional space returns, for every point, the value of the expansion with coefficients u_hat (the conjugate modes of an R2C axis counted, the zero and Nyquist modes once), for both parities of the number of quadrature points, all combinations of Fourier and non-Fourier axes, with each evaluation method, and summed over the processes for every distribution of the coefficients. Proved: no R2C axis and at most one or three non-Fourier axes; R2C axis in 1D; the Python method; the compiled methods when the Nyquist coefficients vanish (always for odd N). Refuted: the compiled methods (the default) count the Nyquist modes of an R2C axis twice for even N; a space with two non-Fourier axes and one complex-to-complex Fourier axis raises an AssertionError; the low-memory method with the non-Fourier axis in the middle uses the wavenumbers of the wrong axis.", "quantifier": "all points, coefficients, sizes, parities, axis types and distributions", "why_tests_cant": "the doubly counted mode is absent from smooth test functions; sampling sizes and axis orders does not cover the dtype dispatch", "anchors": ["shenfun/tensorproductspace.py: eval, _eval_python, _eval_cython, _eval_lm_cython", "shenfun/optimization/cython/evaluate.pyx", "shenfun/fourier/bases.py: R2C._evaluate_expansion_all"]}
{"id": "C83", "title": "Direct convolution gives the coefficients of the product", "statement": "convolve(u, v, fast=False) of a one-dimensional Fourier space returns the exact coefficients of the product of the two functions (for complex spaces 2N coefficients that represent the product at every point, for real spaces the coefficients of wavenumbers 0..N), for both parities of N, never indexing outside the arrays, and agrees with fast=True below the Nyquist mode when the padding is at least 3/2. Refuted: a user-supplied output array is added to instead of overwritten; the check padding_factor > 1 in the fast version admits aliased results.", "quantifier": "all N >= 1, all coefficients (real functions: real mean and Nyquist coefficient), all wavenumbers and points", "why_tests_cant": "every pair of wavenumbers, both parities, negative-index wrap-around and the half-weighted Nyquist mode: an identity of trigonometric polynomials, not of samples", "anchors": ["shenfun/fourier/bases.py: R2C.convolve, C2C.convolve", "shenfun/optimization/cython/convolve.pyx"]}
{"id": "C84", "title": "Transforms of tensor product spaces: forward inverts backward", "statement": "For a TensorProductSpace of any number of dimensions, in any order of the axes and after any history of transforms: backward(u) is the sum over all modes of coefficient times product of basis functions; scalar_product(f) is the quadrature of f times test function times sqrt(det g); forward(f) solves the tensor product mass system against scalar_product(f); and forward(backward(u)) == u when sqrt(det g) is a product of functions of one coordinate each. Refuted: measures that are sums of products (only the first term reaches the mass matrices, silently), and forward() called twice on the planned array in curvilinear coordinates (the measure is applied twice).", "quantifier": "all dimensions, all orders of axes, all histories of calls on the planned arrays, all coefficients and functions, all bases whose mass matrix is nonsingular, exactly integrated and solved", "why_tests_cant": "an identity between composed transforms for every dimension, order of axes and separable measure, and for every earlier use of the shared work arrays", "anchors": ["shenfun/tensorproductspace.py: BackwardTransform.__call__, ScalarTransform.__call__, ForwardTransform.__call__, get_measured_input_array, TensorProductSpace.__init__", "shenfun/spectralbase.py: scalar_product, forward, apply_inverse_mass, get_mass_matrix, get_measured_array", "shenfun/utilities/__init__.py: split"]}
{"id": "C85", "title": "Inhomogeneous boundary conditions in tensor product spaces", "statement": "For a TensorProductSpace with inhomogeneous boundary conditions along one axis, in any number of dimensions and any order of axes: forward(f) returns, for every f, coefficients whose boundary dofs are those set by set_boundary_dofs and which satisfy the Galerkin equations (boundary functions included) for every test function; forward(backward(u)) == u for every u with these boundary dofs; and the boundary dofs are the coefficients of the prescribed boundary data in the other bases when the measure does not depend on the other coordinates. Refuted: in curvilinear coordinates whose measure depends on another coordinate the boundary data are solved with the weighted mass matrix without being weighted, so the boundary value imposed is data/measure.", "quantifier": "all dimensions, positions of the inhomogeneous axis, orders of axes, numbers of conditions, boundary data, functions and coefficients", "why_tests_cant": "depends on where the inhomogeneous axis sits in the order of transforms and on every boundary function; tests compare a few spaces to a tolerance", "anchors": ["shenfun/tensorproductspace.py: BoundaryValues.set_tensor_bcs, _add_mass_rhs, set_boundary_dofs, ForwardTransform.__call__", "shenfun/spectralbase.py: forward, get_bcmass_matrix"]}
{"id": "C86", "title": "inner assembles the weighted inner product", "statement": "For scalar expressions of any number of terms with any derivatives and variable coefficients, on test and trial spaces with any number of components, in any coordinates and dimension, the matrices inner(test, trial) returns add up, entry by entry and boundary functions included, to the weighted inner product of the two expressions (with the metric tensor for vector expressions in two or more dimensions); a linear form inner(test, e(uh), output_array=out) adds to out the inner products of the expression of the function with every test function; Inner(v, a) + Inner(v, b) evaluates to the sum. Refuted: for one-dimensional vectors with covariant basis the metric is not used; inner of rank-two expressions of scalar functions raises IndexError in two or more dimensions; boundary contributions are dropped when the matrix of the homogeneous trial functions has no diagonals; Inner.__add__ changes its left operand.", "quantifier": "all expressions, dimensions, numbers of components, coefficients, measures, metrics, sets of inhomogeneous axes (one, or two in 2D), functions and output arrays", "why_tests_cant": "ranges over all expressions and coordinates; tests compare a few forms to a tolerance", "anchors": ["shenfun/forms/inner.py: inner, Inner.__call__, Inner.__add__"]}
{"id": "C87", "title": "inner of a number and an array is the integral over the true domain", "statement": "inner(c, u) for a number c and an Array u on a one-dimensional space or TensorProductSpace of Jacobi-type axes is, in orthogonal coordinates, c times the quadrature of u times sqrt(det g) over the true domain, and exactly c times the integral whenever u are the point values of a function that times sqrt(det g) is a polynomial of degree below the number of points along every axis; for a tuple it is the sum over the components. Refuted: in oblique coordinates with basis vectors of unit length the array is not measured, so inner(1, Array(T, val=1)) is not the area.", "quantifier": "all dimensions, domains, numbers of points, orthogonal coordinate maps, functions and numbers", "why_tests_cant": "ranges over all domains and coordinate maps; tests compute a few areas", "anchors": ["shenfun/forms/inner.py: inner", "shenfun/utilities/__init__.py: dx", "shenfun/tensorproductspace.py: get_measured_array", "shenfun/coordinates.py: get_scaling_factors"]}
{"id": "C88", "title": "Expr.eval returns the value of the expression", "statement": "For a two-dimensional space and any expression with one component (any number of terms, derivatives and variable scales) of a function with any coefficients, e.eval(x) is at every point the sum of the scales times the partial derivatives of the function in the true coordinates; with an R2C axis whenever the Nyquist coefficients vanish. Refuted: for expressions with several components one number, the sum of the components, is returned; on a vector space with more coefficients along axis 1 than points along axis 0 the compiled code reads behind the end of an array, and with an R2C axis 0 an error is raised, because CompositeSpace.local_slice has a leading slice.", "quantifier": "all expressions, coefficients, points, domains, spaces (scalar, or composite where the slices do no harm)", "why_tests_cant": "ranges over all expressions and points; tests evaluate a few expressions to a tolerance", "anchors": ["shenfun/forms/arguments.py: Expr.eval", "shenfun/tensorproductspace.py: CompositeSpace.local_slice", "shenfun/optimization/cython/evaluate.pyx"]}
{"id": "C89", "title": "Refining a function does not change it", "statement": "`u_hat.refine(N)` and `u_hat.assign(v_hat)` to a space with at least as many points give a function with the same value at every point of the domain; boundary data stays at the end of the new array; with fewer points the coefficients of all modes that the new space has are kept.", "quantifier": "all numbers of dimensions, all combinations of complex and real Fourier bases and polynomial bases with any number of boundary functions, all orders of the axes, all old and new numbers of points, all coefficient arrays, all points, all roundings of the shape computation", "why_tests_cant": "Index ranges depend on the parity of the number of points and the new shape is computed in floating point: tests only double the shape and only check inner(1, u) of functions without Nyquist modes.", "anchors": ["shenfun/forms/arguments.py: Function.refine, Function.assign", "shenfun/spectralbase.py: SpectralBase._padding_backward, SpectralBase._truncation_forward", "shenfun/fourier/bases.py: R2C._padding_backward, C2C._padding_backward, R2C._truncation_forward, C2C._truncation_forward"]}
{"id": "C90", "title": "Tensor product functions keep their value under to_ortho", "statement": "`u_hat.to_ortho()` on a tensor product space returns the coefficients, in the space of the orthogonal bases, of the same function: the value at every point is the same, also with inhomogeneous boundary conditions.", "quantifier": "all numbers of dimensions, all mixtures of composite, orthogonal and Fourier bases with at least one that is not Fourier, all stencil matrices and boundary functions, all complex coefficient arrays, all points", "why_tests_cant": "The conversion goes through the axes one after the other through a work array; a dropped update or a wrong axis shows only for some mixtures of bases.", "anchors": ["shenfun/forms/arguments.py: Function.to_ortho", "shenfun/spectralbase.py: CompositeBase.to_ortho", "shenfun/tensorproductspace.py: TensorProductSpace.get_nonperiodic_axes"]}
