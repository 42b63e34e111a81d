# Formal model of shenfun in Lean 4 — design

## Trusted base

* Lean 4.33.0's kernel, and the standard axioms `propext`, `Classical.choice`, `Quot.sound`
  (every theorem uses a subset; no axiom is declared here, nothing rests on compiled evaluation).
* My reading of `/repo` (nothing is executed): every definition in the model cites the file and lines
  it transcribes, and says where it simplifies.

## Modelling conventions

* Scalars: floating point is **not** modelled.  Arrays hold elements of an arbitrary field `K`
  (or `ℝ`/`ℂ`/`ℚ` where order or conjugation matters): theorems are about exact arithmetic.
* A numpy array of length `n` is a total function `ℕ → K`, with `n` carried separately.  Claims only
  speak about indices `< n`.  In-place assignment is `Function.update`.  Negative Python indices are
  normalised with `pyIdx n i` (`i + n` when `i < 0`) where the code can produce them.
* `for i in range(lo, hi)` is the structural loop `forN`.
* dia storage: row `r`, column `j` of `data` holds entry `(j - offset r, j)` of the matrix, as in scipy.
* Objects with mutable state are records; a method is a function from state to state (and result), a
  history is a list of calls.
* Exceptions are `Option`/`Except` values.

Layout: `lean/Verif/Model/*` (transcription of the code), `lean/Verif/Spec/*` (independent
specifications), `lean/Verif/Lemmas/*` (helper lemmas), `lean/Verif/Props/*` (the property theorems with non-vacuity examples).

## Plan per property

| id | model | proof |
|----|-------|-------|
| C01–C08 | `LU` and `inner_solve` of each banded solver as loops over dia storage | loop invariants give the L·U relations; forward/backward sweep lemma; `A u = b` against a dense-matrix spec; uniqueness from the same relations. C06: the code reads row 1 instead of row 2: refuted by a witness, partial theorem when rows agree |
| C09, C10 | solver object as a state machine (`_lu`, `_inner_arg`, constraints) | induction on call history; counterexamples for PDMA/HeptaDMA constraints and for history dependence |
| C11 | `apply_constraints` of the generic solver | case analysis on keys; refuted at `row+key = 0`, partial otherwise |
| C12–C15 | `SparseMatrix` as association list of diagonals | slice arithmetic vs dense spec |
| C16, C17 | lists of TP matrices with identity (heap references) | induction over lists; aliasing counterexample |
| C18–C21, C23 | coefficient arrays over ℂ/field | index case analysis; geometric sums of roots of unity |
| C22 | rational maps | field arithmetic |
| C24, C25 | componentwise programs | unfolding against spec; stale-value counterexample for the symmetric branch |
| C26 | parser of boundary conditions (tuple, string, dictionary) with domain scaling | case analysis against the conditions asked for in true coordinates; N4, N5, R, W refuted |
| C49 | `bnd_values`, `get_stencil_matrix`, `get_bc_basis` over real polynomials, solve = matrix inverse | boundary values from Spec/Jacobi; Cramer; dual basis |
| C50 | `to_ortho` with boundary lift | linear algebra on stencil rows |
| C51 | `psi`, `gamma`, `h` of jacobi/recursions.py and every family's `L2_norm_sq`, real Gamma function | weighted integrals (interval integral of `(1-x)^a(1+x)^b p`), integration by parts, Beta integral |
| C52 | `_a`, `_b`, `_c`, `matpow`, `pmat`, `a_`, `a_mat` with exact reals; sympy's removable singularities in cancelled form, refutations where sympy's order of substitution gives another value | three-term recurrences of Lemmas/JacobiRec, induction on the power over tridiagonal matrices |
| C53 | `ShiftedMatrix` slices and `Lmat` products | index arithmetic (omega), orthogonality of derivatives from C51, expansions from C52 |
| C54, C55 | `_assemble_stencil`, domain maps, `_get_matrix` exact, `extract_diagonal_matrix` | expansion of p Q_n by C52, truncation harmless by orthogonality, substitution of the integral; counterexamples by exact integration |
| C27, C47, C48 | `_stencil` dictionaries and stencil matrices over real polynomials; orthogonal families as Jacobi polynomials | closed form of all derivatives at ±1 (Spec/Jacobi), rational identities per class; triangularity and unisolvence give the basis property |
| C28 | `assemble` of every class of chebyshev/matrices.py as a dictionary of diagonals with array lengths; exact reals | closed forms of (T_k, D^r T_j)_w by induction on j, then entry by entry on the distance of row and column |
| C56 | `assemble` of every registered class of legendre/matrices.py, as for C28 | closed forms of (P_k, D^r P_j) by induction, integration by parts with the boundary values of C27, (1+x) identities for the weighted ones |
| C29, C30 | time loop, RK4 step | induction on number of steps; ring identities |
| C31, C32 | `Expr` as lists of (scale, derivative multi-index, component) over a commutative ring with commuting derivations; sympy's `simplify`/`refine` are the identity, its zero tests and square roots are oracles assumed sound | induction over term lists; the ring of smooth functions on ℝ^n is constructed as an instance |
| C57 | `Coordinates` (basis, metric, Christoffel symbols, scaling factors) and all branches of `grad`, `div`, `curl` over the same ring | Jacobi's formula for the derivative of the volume element, duality of the bases; left-handed `curl` and one-dimensional `grad(grad(u))` refuted |
| C33, C34 | trees of composite/vector/tensor spaces, views as (start, length) into the base array, row-major regions of slices and integers | induction over paths, trees and lists; negative indices and nested one-component spaces refuted |
| C37, C58 | slices of degrees of freedom, `set_boundary_dofs`, `BoundaryValues.update` as a state machine | interval arithmetic; invariant over histories |
| C35, C36 | arrays as functions of multi-indices | pointwise reasoning |
| C38 | `evaluateExpansionAll`, `scalarProductRec`, `restrictedProduct`, compiled variant, Clenshaw `chebval` | loop invariants: work arrays hold degrees k,k+1,k+2; rows of the recursion matrix tied to C52 |
| C59 | `leg2cheb`, `cheb2leg`, `FMMdirect1`, `FMMdirect4`, the multidimensional wrappers | loops → finite sums; connection coefficients proved from the Legendre and Chebyshev recurrences (Lemmas/Connection) |
| C60 | `Model/FMM` (levels, `get_ij`, `FMMcheb` both ways, `FMMdirect1-4`, `conversionmatrix`, `getChebyshev` samples, padded sizes); `Props/FMM`, `Props/FMMBuild`. Geometry: every separated pair lies in exactly one submatrix (induction on levels). Sweeps: loop invariants give moments and local expansions; result = near part + Σ low-rank kernels. Error bound against the direct conversion of C59. Hypothesis RankOK; size of the kernel's polynomial approximation error not modelled |
| C61 | `Model/ChebTransforms` (points, weights, DCT/DST based backward/scalar product/forward with the code's scalings, padding), `Spec/DCT` = FFTW's definitions; `Props/ChebTransforms`. Proved by finite trigonometric orthogonality sums (`Lemmas/ChebSums`) |
| C62 | same model, `Spec/Quadrature.ExactRule` (sum = integral against the Jacobi weight for all polynomials below a degree); expansion in T/U; product rules for `dx` |
| C63 | `Model/GaussTransforms` (Vandermonde transforms, unweighted weights, Lagrange polynomials, Lobatto points/weights); `Props/GaussTransforms`, exactness of the external Gauss rules (scipy, fastgl) is a hypothesis; Lobatto proved from roots of P'_{N-1} (Newton iteration not modelled) |
| C64 | `Model/DLT` (DCT/DST wrappers, loop state, pass, stopping test, final conversion/reversal); `Props/DLT`. Loop invariant: partial sum = Taylor polynomial of cos(k theta); Taylor remainder bound; increments tend to zero, hence termination; conversion matrix of C59 is nonnegative with column sums 1 |
| C65, C66 | `Model/ChebSolvers` (ADD and ANN back substitutions with running parity sums, in place or not, compiled variant); `Lemmas/SuffixSweep`, `Props/ChebSolvers`. Invariant: the accumulators are the suffix sums of the solved unknowns; matrix entries from C28, so the statement is about weighted integrals of the basis functions |
| C67 | `Model/ChebSolvers` (preLU, LU_Helmholtz numba/Cython, Solve_Helmholtz, many-line loop with shared A_0); `Lemmas/Helmholtz` (factorisation = LU of the row-constant upper matrix), `Props/Helmholtz` (Galerkin equations, definiteness of the Dirichlet problem, generic solvability of the Neumann problem, two refutations) |
| C68 | `Model/Biharmonic` (LU_oe_Biharmonic_1D with its rolling rows, Biharmonic_factor_oe_pr, forward/back substitution with the two suffix sums, even/odd split of the constructor); `Lemmas/Biharmonic` (rolling elimination = LU with two sub-diagonals, closed form of the far entries), `Lemmas/ChebCoercive` (sum-of-squares identities for the second and fourth order Chebyshev forms), `Props/Biharmonic` (Galerkin equations, definiteness, genericity, two refutations) |
| C69 | `Model/Matvecs` (all kernels of Matvec.pyx used by the Chebyshev/Legendre matrices, the matvec methods, the numba variants, the products of Helmholtz and Biharmonic, dictionaries with callable diagonals); `Lemmas/Matvecs` (loops = closed form per row, row of a banded product), `Spec/Matvec` (product of a form with the function of given coefficients); `Props/Matvecs`, `MatvecSums`, `MatvecSolvers`, `MatvecBiharmonic`, `MatvecHistory` (each method against its form, via the entry theorems C28/C56; refutations) |
| C70 | `Model/FourierMatrices` (the six tabulated matrices as dictionary displays with repeated keys, FourierMatrix.assemble, the scale of SpectralMatrix.__init__, FourierMatrix.solve with infinities as `none`); `Spec/FourierForms` (modes on (a,b), integral and quadrature inner products); `Props/FourierMatrices` (discrete/continuous orthogonality, every entry, domains, solve; refutations) |
| C71 | `Model/Hermite` (numpy hermvander recurrence, factor, derivative evaluation, weights, Vandermonde transforms, BHHmat, AHHmat, its matvec); `Spec/Hermite` (Rodrigues' formula, Gauss-Hermite rules as exactness + zeros). Proof: raising/lowering relations, integration by parts against exp(-x²), pivots of TDMA in closed form |
| C72 | `Model/Laguerre` (numpy lagvander and lagder loops, both derivative evaluators, bnd_values, stencils, transforms, BLLmat, BCDCDmat, ACDCDmat); `Spec/Laguerre` (explicit sum, Gauss-Laguerre rules). Proof: coefficient identities, Sturm-Liouville form, gamma integrals, degree argument for completeness |
| C73 | `Model/Helmholtz2D` (both solvers, cached eigenvectors, call histories; eigenvalue routines as arguments); `Spec/Helmholtz2D` (the bilinear equation, generalised and standard eigenvalue problems). Proof: simultaneous diagonalisation, uniqueness; one-by-one counterexamples |
| C74 | `Model/DirectSolvers` (state: matrix and cached factorization; `splu` exact); `Spec/DirectSolvers` (`SolvesWith`: equations replaced by values). Proof: invariant on the cached factorization over call histories; exact description of the wrong branches; counterexamples |
| C75 | `Model/Block` on the heap of `Model/TP` (references, in-place merge); proof: invariant of `__iadd__` block by block, per-block version of the C16 merge loop, C36 for matvec |
| C76 | `Model/Project` (two-axis branch, diagonal solve, shortcut of Project; rhs and mass matrix given, one process); proof: tensor operator as product of axis operators (C36) |
| C77 | `Model/Checkpoint` (disk with two files, calls as lists of atomic steps, writes element by element); `Spec/Checkpoint` (schedules, partition of the arrays, snapshot, recoverable). Proof: an element written by one process does not see the schedule; invariant over histories and every prefix of the steps of a call. Not modelled: HDF5 internals, shapes; collective open taken as barrier |
| C78 | `Model/Xdmf` (numbers put into the geometry, in-place change of `per`, format arguments of the mesh templates, grids per slice); spec: grid step and points. Proof: case analysis over axes and orders, algebra |
| C79 | `Model/ChebUMatrices`; spec `wInt` (weighted integral of polynomials) and `IsMatrixOf`. Proof: connection of T and U, linear combinations, case split on the diagonals |
| C80 | `Model/CythonLA`: memory `ℤ → K`, pointer and stride, no bounds checks; spec: `LineKernel` (effect on a line, nothing else written), Python models of C01-C08. Proof: simulation between memory line and array statement by statement; disjoint lines by injectivity of row-major addresses; loops by induction. Non-contiguous arrays not modelled |
| C81 | `Model/ApplyMask`: loop nests over flat memory with row-major offsets; spec `IsMasked` (product with the broadcast mask at every index, rest of memory unchanged). Proof: a nest of clearing loops clears the union of its cells; offsets are injective on the shape. Numba version and the type of the returned object (memoryview) not modelled |
| C82 | `Model/Evaluate`: one point; all kernels of `evaluate_2D`/`evaluate_3D` with the dtype dispatch, the Python branch for two axes, two low-memory kernels, the 1D R2C branch. Spec: multiplicity 1 or 2 of a mode. Proof: loops are sums; the compiled test `ii > 0 & ii < M` is `0 < ii`. The basis functions themselves are in C38, C70-C72 |
| C83 | `Model/Convolve`: the two compiled loops with Python indexing and `fftfreq`. Spec: `coefC`, `coefR`, `conv`, `trig` of Spec/Trig. Proof: loops are double sums, the wavenumbers are a bijection onto -N/2..N/2; `C83_product`: `conv` is the product at every point |
| C84 | Model/TensorTransform: bases as matrices along axes, planned physical array as state, `split` of the measure, `get_mass_matrix` with `msdict[0]`. Proof: operators along different axes commute; induction on the list of axes gives the Galerkin equations and the round trip; refutations by evaluation over the rationals |
| C85 | `Model/TensorBoundary`: the C84 model with boundary dofs along one axis, intermediate and final boundary values of `set_tensor_bcs`. Proof: the mass matrix extended by the columns of the boundary functions satisfies the same induction over axes; slices commute with transforms along other axes; uniqueness by injectivity of the tensor product |
| C86 | `Model/InnerForm`: the assembly loop of `inner` over components, terms, and terms of the split measure, with boundary matrices, the loop of linear forms, the recursion for vector test functions, and `Inner`. `split`, sympy's zero test and the one-dimensional inner products are parameters with the properties C54 proves for them. Proof: the products of one-dimensional quadratures sum to the tensor product quadrature (`Finset.prod_univ_sum`); the appended patterns of boundary matrices partition the trial functions. Arrays as trial (orthogonal projection), and rank-two test functions, are not modelled |
| C87 | `Model/Integral`: `inner(c, u)` with a number for Jacobi-type axes in any dimension and coordinates: domain factors, the measuring decision `hi.prod() != 1`, `dx`. Proof: C62's formula for `dx`, change of variables on each axis, products of one-dimensional integrals (`integral_fintype_prod_eq_prod`); Fourier, Laguerre and Hermite axes are not modelled |
| C88 | `Model/ExprEval`: `Expr.eval` in two dimensions on one process, on the evaluation loops of C82: rows of derivatives, domain factors, scales, and the slices of scalar and composite spaces. Proof: chain rule for the affine map (`iteratedDeriv_comp_const_smul`), the loops are the iterated partial derivatives of the expansion; folds in `Option` |
| C89 | `Model/Refine.lean` models the padding/truncation of one axis for the three implementations, the shape computation with a rounding function as parameter, the loop over the axes of `refine`, and `assign` in 1D. `Spec/Refine.lean` defines the value of a function by its coefficients and basis functions (symmetric interpolator for complex Fourier, double counting for real Fourier, boundary functions last). Per-axis sum identities, then induction over the axes by writing the value as one-row matrices along the axes (C84's `all_axes`). binary64 round-to-nearest-even is defined on ℚ for the refutation. |
| C90 | `Model/ToOrthoND.lean`: `Function.to_ortho` over the axes, on the conversion of one base of C50 acting on real and imaginary parts. `Spec/ToOrthoND.lean`: value of an expansion by basis functions that are rows of the stencil matrix, then boundary functions. Proof: per-axis identity, induction over the list of axes with the set of functions changing axis by axis. |
| C39, C40 | wrap, cache state machine | induction over histories |
| C42, C45, C46 | stages of the IMEX classes and IRK3 over modules, solver list of an object | invariant over stages gives the scheme for every tableau; rational amplification factors give the order (IMEXRK3 third order refuted) |
| C43 | exponential weights as contour means over ℂ | trigonometric sums, power series of the φ-functions with error bound; complex operators refuted |
| C44 | BackwardEuler with stored nonlinear term | step identity; first step refuted |
