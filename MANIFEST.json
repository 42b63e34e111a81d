{
 "claims": [
  {
   "property": "C01",
   "status": "proved",
   "theorems": [
    "Shenfun.C01_tdma_solves",
    "Shenfun.C01_tdma_pivots_iff",
    "Shenfun.C01_tdma_size_one"
   ],
   "note": "n>=2; exact arithmetic in any field; condition = all leading principal minors non-zero, shown equivalent to non-zero pivots; n=1 shown to divide twice"
  },
  {
   "property": "C02",
   "status": "proved",
   "theorems": [
    "Shenfun.C02_tdmaO_solves",
    "Shenfun.C02_tdmaO_pivots_iff"
   ],
   "note": "n>=1, any field"
  },
  {
   "property": "C03",
   "status": "proved",
   "theorems": [
    "Shenfun.C03_pdma_solves",
    "Shenfun.C03_pdma_pivots_iff"
   ],
   "note": "n>=4, any field"
  },
  {
   "property": "C04",
   "status": "proved",
   "theorems": [
    "Shenfun.C04_fdma_solves",
    "Shenfun.C04_fdma_pivots_iff"
   ],
   "note": "n>=4, any field"
  },
  {
   "property": "C05",
   "status": "proved",
   "theorems": [
    "Shenfun.C05_twoDMA_solves"
   ],
   "note": "n>=2, any field"
  },
  {
   "property": "C06",
   "status": "partial",
   "theorems": [
    "Shenfun.C06_threeDMA_partial",
    "Shenfun.C06_threeDMA_refuted",
    "Shenfun.C06_threeDMA_five_iff",
    "Shenfun.C06_threeDMA_repaired"
   ],
   "note": "the code reads the second upper diagonal from the wrong row; full claim refuted by a witness, holds when rows agree; reading row 2 gives the full claim"
  },
  {
   "property": "C07",
   "status": "proved",
   "theorems": [
    "Shenfun.C07_heptaDMA_solves",
    "Shenfun.C07_heptaDMA_pivots_iff"
   ],
   "note": "n>=8, any field"
  },
  {
   "property": "C08",
   "status": "proved",
   "theorems": [
    "Shenfun.C08_diagMA_solves"
   ],
   "note": "any n"
  },
  {
   "property": "C09",
   "status": "proved",
   "theorems": [
    "Shenfun.C09_reuse"
   ],
   "note": "all classes but ThreeDMA (C06); ghost counter shows at most one factorisation"
  },
  {
   "property": "C10",
   "status": "partial",
   "theorems": [
    "Shenfun.C10_constraint_partial",
    "Shenfun.C10_constraint_any_history_partial",
    "Shenfun.C10_history_after_constraint",
    "Shenfun.C10_constraint_sticky",
    "Shenfun.C10_full_refuted",
    "Shenfun.C10_fresh_constraint_refuted",
    "Shenfun.C10_late_constraint_refuted"
   ],
   "note": "full claim refuted for every class; proved for all-constrained histories of DiagMA/TDMA/FDMA/TwoDMA and any history for DiagMA/TwoDMA"
  },
  {
   "property": "C11",
   "status": "partial",
   "theorems": [
    "Shenfun.SM.C11_constraints_partial",
    "Shenfun.SM.C11_column_zero_kept",
    "Shenfun.SM.C11_full_refuted"
   ],
   "note": "fails when the diagonal with offset -row is stored (row+key>0 instead of >=0); proved otherwise for any list of constraints"
  },
  {
   "property": "C12",
   "status": "proved",
   "theorems": [
    "Shenfun.SM.C12_matvec",
    "Shenfun.SM.C12_slices_agree"
   ],
   "note": "one-dimensional arrays, format python; scalar and array diagonals"
  },
  {
   "property": "C13",
   "status": "proved",
   "theorems": [
    "Shenfun.SM.C13_add_sub",
    "Shenfun.SM.C13_add_error",
    "Shenfun.SM.C13_add_keeps_operand",
    "Shenfun.SM.C13_iadd_self",
    "Shenfun.SM.C13_scalar",
    "Shenfun.SM.C13_tolerance_inexact"
   ],
   "note": "exact outside the code's tolerance windows (1e-15 around 0, 1e-8 around 1), explicit error bound inside"
  },
  {
   "property": "C14",
   "status": "proved",
   "theorems": [
    "Shenfun.SM.C14_getSolver_iff",
    "Shenfun.SM.C14_solve_end_to_end"
   ],
   "note": "issymmetric with exact comparison"
  },
  {
   "property": "C15",
   "status": "proved",
   "theorems": [
    "Shenfun.SM.C15_storage_canonical",
    "Shenfun.SM.C15_last_assignment"
   ],
   "note": ""
  },
  {
   "property": "C16",
   "status": "partial",
   "theorems": [
    "Shenfun.C16_simplify_op",
    "Shenfun.C16_sum",
    "Shenfun.C16_caller_unchanged",
    "Shenfun.C16_aliasing",
    "Shenfun.C16_full_refuted",
    "Shenfun.C16_scalar_scale_dropped"
   ],
   "note": "Sum preserved for assembled matrices (unit scales, as inner() builds them); caller untouched when every matrix has a Fourier axis. The unrestricted statement is refuted: without a diagonal axis get_simplified returns the caller's object and += mutates it; scalar diagonals drop mat.scale."
  },
  {
   "property": "C17",
   "status": "proved",
   "theorems": [
    "Shenfun.C17_extract"
   ],
   "note": "For all lists; hypothesis: the key (class) of a matrix determines whether it is a boundary matrix."
  },
  {
   "property": "C18",
   "status": "proved",
   "theorems": [
    "Shenfun.Fourier.C18_C2C",
    "Shenfun.Fourier.C18_R2C",
    "Shenfun.Fourier.C18_one_point_broadcast"
   ],
   "note": "Complex: all 2<=N<M. Real: all N, the (meaningless) imaginary part of the Nyquist coefficient is dropped. For N=1 C2C padding broadcasts the mean (bug shown)."
  },
  {
   "property": "C19",
   "status": "proved",
   "theorems": [
    "Shenfun.Fourier.C19_C2C",
    "Shenfun.Fourier.C19_R2C",
    "Shenfun.Fourier.C19_values_C2C",
    "Shenfun.Fourier.C19_values_R2C"
   ],
   "note": "All wavenumbers and also the mesh values of the padded backward transform."
  },
  {
   "property": "C20",
   "status": "partial",
   "theorems": [
    "Shenfun.Fourier.C20_C2C",
    "Shenfun.Fourier.C20_R2C",
    "Shenfun.Fourier.C20_values_C2C",
    "Shenfun.Fourier.C20_values_R2C",
    "Shenfun.Fourier.C20_C2C_small",
    "Shenfun.Fourier.C20_full_refuted"
   ],
   "note": "Real: all N. Complex: N>=6; for N=3,4,5 the code removes nothing, so the full statement is refuted."
  },
  {
   "property": "C21",
   "status": "proved",
   "theorems": [
    "Shenfun.Fourier.C21_C2C",
    "Shenfun.Fourier.C21_C2C_nyquist",
    "Shenfun.Fourier.C21_R2C",
    "Shenfun.Fourier.C21_nyquist_refuted"
   ],
   "note": "FFTW is modelled by the sums it computes. At M=3N/2 the Nyquist coefficient is aliased (shown), as the statement excludes."
  },
  {
   "property": "C22",
   "status": "proved",
   "theorems": [
    "Shenfun.C22_inverse",
    "Shenfun.C22_affine",
    "Shenfun.C22_ends"
   ],
   "note": "Exact arithmetic over any ordered field; infinite domains (Laguerre, Hermite), whose domain_factor is 1, not modelled."
  },
  {
   "property": "C23",
   "status": "partial",
   "theorems": [
    "Shenfun.C23_distributed_partial",
    "Shenfun.C23_one_process",
    "Shenfun.C23_1D_partial",
    "Shenfun.C23_1D_wrong",
    "Shenfun.C23_full_refuted",
    "Shenfun.C23_distributed_refuted",
    "Shenfun.C23_parseval",
    "Shenfun.C23_real",
    "Shenfun.C23_hermitian"
   ],
   "note": "Proved for tensor product spaces when every process has >=2 (odd N: >=1) wavenumbers of the R2C axis, and for one dimension with N=1,2 mod 4. Refuted otherwise: the 1D branch tests the parity of the wrong number, and a process with a single wavenumber counts it twice."
  },
  {
   "property": "C24",
   "status": "partial",
   "theorems": [
    "Shenfun.C24_outer2D",
    "Shenfun.C24_outer3D_partial",
    "Shenfun.C24_outer3DCython",
    "Shenfun.C24_outer3D_symmetric",
    "Shenfun.C24_full_refuted"
   ],
   "note": "Two components and Cython: all cases. Three components, default Python version: wrong (stale c[5]) for outer(a,a,c)."
  },
  {
   "property": "C25",
   "status": "partial",
   "theorems": [
    "Shenfun.C25_cross3D",
    "Shenfun.C25_cross3D_levi",
    "Shenfun.C25_cross2D",
    "Shenfun.C25_surface_refuted"
   ],
   "note": "Three-component vectors on a two-dimensional mesh get the two-dimensional formula."
  },
  {
   "property": "C26",
   "status": "partial",
   "theorems": [
    "Shenfun.C26_conditions_satisfied_partial",
    "Shenfun.C26_tuple",
    "Shenfun.C26_tuple_conditions_partial",
    "Shenfun.C26_N4_refuted",
    "Shenfun.C26_N5_refuted",
    "Shenfun.C26_robin_refuted",
    "Shenfun.C26_string",
    "Shenfun.C26_string_error",
    "Shenfun.C26_one_sided"
   ],
   "note": "Parser of bcs (tuple, string, dict): conditions D, N, N2, N3 are imposed in true coordinates for every domain; N4, N5, R and W are not rescaled with the domain factor, so the full claim is refuted for them by witnesses."
  },
  {
   "property": "C27",
   "status": "partial",
   "theorems": [
    "Shenfun.C27_cheb_ShenDirichlet",
    "Shenfun.C27_cheb_Phi1",
    "Shenfun.C27_cheb_ShenNeumann",
    "Shenfun.C27_cheb_ShenBiharmonic",
    "Shenfun.C27_cheb_Phi2",
    "Shenfun.C27_cheb_Phi3",
    "Shenfun.C27_cheb_Phi4",
    "Shenfun.C27_cheb_Phi6",
    "Shenfun.C27_cheb_Compact3",
    "Shenfun.C27_cheb_Compact4",
    "Shenfun.C27_cheb_UpperDirichlet",
    "Shenfun.C27_cheb_LowerDirichlet",
    "Shenfun.C27_cheb_DirichletNeumann",
    "Shenfun.C27_cheb_NeumannDirichlet",
    "Shenfun.C27_cheb_UpperDirichletNeumann",
    "Shenfun.C27_cheb_LowerDirichletNeumann",
    "Shenfun.C27_chebu_Phi1",
    "Shenfun.C27_chebu_Phi1Scaled",
    "Shenfun.C27_chebu_Phi2",
    "Shenfun.C27_chebu_Phi2Scaled",
    "Shenfun.C27_chebu_Phi3",
    "Shenfun.C27_chebu_Phi4",
    "Shenfun.C27_chebu_Phi6",
    "Shenfun.C27_chebu_CompactDirichlet",
    "Shenfun.C27_chebu_CompactDirichletScaled",
    "Shenfun.C27_chebu_CompactNeumann",
    "Shenfun.C27_chebu_CompactBiharmonic",
    "Shenfun.C27_chebu_Compact3",
    "Shenfun.C27_chebu_UpperDirichlet",
    "Shenfun.C27_leg_ShenDirichlet",
    "Shenfun.C27_leg_ShenDirichletScaled",
    "Shenfun.C27_leg_Phi1",
    "Shenfun.C27_leg_ShenNeumann",
    "Shenfun.C27_leg_ShenBiharmonic",
    "Shenfun.C27_leg_Phi2",
    "Shenfun.C27_leg_Phi3",
    "Shenfun.C27_leg_Phi4",
    "Shenfun.C27_leg_Phi6",
    "Shenfun.C27_leg_Compact3",
    "Shenfun.C27_leg_UpperDirichlet",
    "Shenfun.C27_leg_LowerDirichlet",
    "Shenfun.C27_leg_DirichletNeumann",
    "Shenfun.C27_leg_NeumannDirichlet",
    "Shenfun.C27_leg_UpperDirichletNeumann",
    "Shenfun.C27_leg_BeamFixedFree",
    "Shenfun.C27_cheb_Heinrichs",
    "Shenfun.C27_cheb_CombinedShenNeumann",
    "Shenfun.C27_cheb_MikNeumann",
    "Shenfun.C27_cheb_PolarDirichlet",
    "Shenfun.C27_leg_ShenBiPolar",
    "Shenfun.C27_cheb_ShenBiPolar_partial",
    "Shenfun.C27_cheb_ShenBiPolar_refuted"
   ],
   "note": "Proved for every composite class of chebyshev/bases.py and legendre/bases.py with a fixed stencil, for all N and all indices, except: Chebyshev ShenBiPolar, whose first function violates both conditions (refuted, others proved), and Heinrichs2, whose overlong diagonals scipy rejects (not modelled). Robin/Generic spaces: C49."
  },
  {
   "property": "C28",
   "status": "proved",
   "theorems": [
    "Shenfun.C28_cheb_ASDSD",
    "Shenfun.C28_cheb_CSDSN",
    "Shenfun.C28_cheb_CSDSD",
    "Shenfun.C28_cheb_CSNSD",
    "Shenfun.C28_cheb_CTSD",
    "Shenfun.C28_cheb_ASBT",
    "Shenfun.C28_cheb_CSDT",
    "Shenfun.C28_cheb_CTT",
    "Shenfun.C28_cheb_CSBSD",
    "Shenfun.C28_cheb_CSDSB",
    "Shenfun.C28_cheb_ASBSB",
    "Shenfun.C28_cheb_ASNSN",
    "Shenfun.C28_cheb_ASBSD",
    "Shenfun.C28_cheb_ATT",
    "Shenfun.C28_cheb_ATSD",
    "Shenfun.C28_cheb_ATSN",
    "Shenfun.C28_cheb_SSBSB",
    "Shenfun.C28_cheb_BTT",
    "Shenfun.C28_cheb_BSDSD",
    "Shenfun.C28_cheb_BSNSD",
    "Shenfun.C28_cheb_BSDSN",
    "Shenfun.C28_cheb_BLDLD",
    "Shenfun.C28_cheb_BSNSN",
    "Shenfun.C28_cheb_BSDT",
    "Shenfun.C28_cheb_BTSD",
    "Shenfun.C28_cheb_BTSN",
    "Shenfun.C28_cheb_BSBSB",
    "Shenfun.C28_cheb_BSBSD",
    "Shenfun.C28_cheb_BSBT",
    "Shenfun.C28_cheb_ACNCN",
    "Shenfun.C28_cheb_ASDMN",
    "Shenfun.C28_cheb_ASNCN",
    "Shenfun.C28_cheb_ASDHH",
    "Shenfun.C28_cheb_AHHHH",
    "Shenfun.C28_chebNormSq_norms",
    "Shenfun.C28_chebNormSq_exact",
    "Shenfun.C28_cheb_exact_form",
    "Shenfun.C28_cheb_BSNSN_rect_refuted",
    "Shenfun.C28_cheb_CTT_rect_refuted"
   ],
   "note": "All 34 hard-coded Chebyshev classes modelled, lengths of arrays and entries, unbounded N. Mass matrices for any inner product with the norms of get_norm_sq (exact integration shown to be one). Rectangular use: proved where it works; BSNSN and CTT shown to fail (wrong array length) for unequal sizes."
  },
  {
   "property": "C29",
   "status": "proved",
   "theorems": [
    "Shenfun.Integrators.C29_steps",
    "Shenfun.Integrators.C29_rounding",
    "Shenfun.Integrators.C29_number",
    "Shenfun.Integrators.C29_small_dt_refuted",
    "Shenfun.Integrators.C29_nonterminating"
   ],
   "note": "dt<=1e-8 shown to fail; nyquist masks and params not modelled"
  },
  {
   "property": "C30",
   "status": "partial",
   "theorems": [
    "Shenfun.Integrators.C30_array",
    "Shenfun.Integrators.C30_number",
    "Shenfun.Integrators.C30_number_refuted",
    "Shenfun.Integrators.C30_linear"
   ],
   "note": "L given as a number is ignored by the code: refuted for numbers, proved for arrays"
  },
  {
   "property": "C31",
   "status": "proved",
   "theorems": [
    "Shenfun.C31_mul",
    "Shenfun.C31_mulTuple",
    "Shenfun.C31_add",
    "Shenfun.C31_sub",
    "Shenfun.C31_neg",
    "Shenfun.C31_simplify",
    "Shenfun.C31_simplify_distinct",
    "Shenfun.C31_ofBasis"
   ],
   "note": "Values over any commutative ring with derivations; sympy's zero test is an oracle whose positive answers are assumed correct."
  },
  {
   "property": "C32",
   "status": "proved",
   "theorems": [
    "Shenfun.C32_dx1",
    "Shenfun.C32_dx",
    "Shenfun.C32_grad",
    "Shenfun.C32_div",
    "Shenfun.C32_div_grad",
    "Shenfun.C32_curl3",
    "Shenfun.C32_curl2Scalar",
    "Shenfun.C57_div_curl",
    "Shenfun.C57_curl_grad",
    "Shenfun.C32_curl_grad_no_rank"
   ],
   "note": "Values of the operators in Cartesian coordinates (any dimension). div(curl)=0 and curl(grad)=0 also in curvilinear coordinates. C32_curl_grad_no_rank: the object returned by curl(grad(u)) has components without terms and expr_rank raises on it."
  },
  {
   "property": "C33",
   "status": "partial",
   "theorems": [
    "Shenfun.C33_numComponents",
    "Shenfun.C33_view",
    "Shenfun.C33_basis",
    "Shenfun.C33_partition",
    "Shenfun.C33_negative_index_wrong",
    "Shenfun.C33_single_component_wrong"
   ],
   "note": "Non-negative indices along any path that does not pass through a one-component composite space; the two excluded cases are proved wrong."
  },
  {
   "property": "C34",
   "status": "proved",
   "theorems": [
    "Shenfun.C34_offsets",
    "Shenfun.C34_dims",
    "Shenfun.C34_roundtrip",
    "Shenfun.C34_roundtrip'"
   ],
   "note": "Functions with a leading axis over components (a scalar Function on a TensorProductSpace has none; the default slices then have one index too many)."
  },
  {
   "property": "C35",
   "status": "proved",
   "theorems": [
    "Shenfun.C35_axis2D",
    "Shenfun.C35_axis3D",
    "Shenfun.C35_axis4D",
    "Shenfun.C35_fastSolve2D",
    "Shenfun.C35_solveData3D",
    "Shenfun.C35_banded_axis3D"
   ],
   "note": "Line loops of the numba back end and SolverGeneric1ND; numpy-vectorised fall-back not modelled."
  },
  {
   "property": "C36",
   "status": "partial",
   "theorems": [
    "Shenfun.C36_matvec",
    "Shenfun.C36_three_axes_zero",
    "Shenfun.C36_diags"
   ],
   "note": "All shapes, up to two non-diagonal axes; with three or more the code returns zeros (C36_three_axes_zero). kron assembly for any dimension."
  },
  {
   "property": "C37",
   "status": "proved",
   "theorems": [
    "Shenfun.C37_partition",
    "Shenfun.C37_set_boundary_dofs",
    "Shenfun.C37_padded"
   ],
   "note": "The number of rows of the boundary stencil equals the number of boundary conditions (C48-C50 construct it so)."
  },
  {
   "property": "C38",
   "status": "proved",
   "theorems": [
    "Shenfun.C38_evaluate",
    "Shenfun.C38_scalar_product",
    "Shenfun.C38_scalar_product_compiled",
    "Shenfun.C38_restricted",
    "Shenfun.C38_legendre",
    "Shenfun.C38_chebval",
    "Shenfun.C38_scalar_product_compiled_refuted"
   ],
   "note": "All lengths, points, Jacobi parameters and coefficient spaces (complex, multidimensional); exact arithmetic. RegularParams excludes alpha+beta=-1 and alpha=-beta (the recursion matrix itself is wrong there, see C52). The compiled scalar product swaps its two lengths: equal lengths proved, unequal refuted."
  },
  {
   "property": "C39",
   "status": "partial",
   "theorems": [
    "Shenfun.NdArray.C39_2D",
    "Shenfun.NdArray.C39_3D_partial",
    "Shenfun.NdArray.C39_3D_axis0_error",
    "Shenfun.NdArray.C39_1D_axis0_error",
    "Shenfun.NdArray.C39_full_refuted"
   ],
   "note": "2D: all axes. 3D: axes 1 and 2; axis 0 raises. 1D raises."
  },
  {
   "property": "C40",
   "status": "proved",
   "theorems": [
    "Shenfun.CacheState.C40_same",
    "Shenfun.CacheState.C40_distinct",
    "Shenfun.CacheState.C40_content"
   ],
   "note": "All histories of accesses, deletions, writes and other allocations; __setitem__ (which lets the user store any array) is not modelled."
  },
  {
   "property": "C41",
   "status": "proved",
   "theorems": [
    "Shenfun.C41_solver_generic_1nd",
    "Shenfun.assemble1D_entry"
   ],
   "note": "Per-line assembly (with the tolerances of __iadd__) and composition to the tensor product system."
  },
  {
   "property": "C42",
   "status": "partial",
   "theorems": [
    "Shenfun.Integrators.C42_scheme",
    "Shenfun.Integrators.tableaux_diag",
    "Shenfun.Integrators.C42_order_111",
    "Shenfun.Integrators.C42_order_222",
    "Shenfun.Integrators.C42_order_443",
    "Shenfun.Integrators.C42_011_ignores_linear",
    "Shenfun.Integrators.C42_order_irk3_partial",
    "Shenfun.Integrators.C42_order_irk3_explicit",
    "Shenfun.Integrators.C42_order_irk3_refuted"
   ],
   "note": "IMEXRK3/IRK3 are only second order when L is not zero: documented third order refuted"
  },
  {
   "property": "C43",
   "status": "partial",
   "theorems": [
    "Shenfun.Integrators.C43_etd_linear",
    "Shenfun.Integrators.C43_etd_linear_steps",
    "Shenfun.Integrators.C43_etdrk4",
    "Shenfun.Integrators.C43_etdrk4_rk4",
    "Shenfun.Integrators.C43_etd_real",
    "Shenfun.Integrators.C43_etdrk4_real",
    "Shenfun.Integrators.C43_complex_refuted"
   ],
   "note": "proved for real L; for complex L the code keeps only the real part of phi (refuted)"
  },
  {
   "property": "C44",
   "status": "partial",
   "theorems": [
    "Shenfun.Integrators.C44_step",
    "Shenfun.Integrators.C44_linear_partial",
    "Shenfun.Integrators.C44_constant_partial",
    "Shenfun.Integrators.C44_first_step",
    "Shenfun.Integrators.C44_refuted"
   ],
   "note": "code uses 2N(u_n)-N(u_(n-1)) with zero history: first step inconsistent (refuted)"
  },
  {
   "property": "C45",
   "status": "partial",
   "theorems": [
    "Shenfun.Integrators.C45_integrators",
    "Shenfun.Integrators.C45_imex_partial",
    "Shenfun.Integrators.C45_imex_stale",
    "Shenfun.Integrators.C45_imex_refuted"
   ],
   "note": "IMEX classes keep using the first solver: refuted"
  },
  {
   "property": "C46",
   "status": "partial",
   "theorems": [
    "Shenfun.Integrators.C46_split",
    "Shenfun.Integrators.C46_irk3",
    "Shenfun.Integrators.C46_imex",
    "Shenfun.Integrators.C46_etdrk4",
    "Shenfun.Integrators.C46_backwardEuler_refuted"
   ],
   "note": "BackwardEuler depends on history: refuted"
  },
  {
   "property": "C47",
   "status": "partial",
   "theorems": [
    "Shenfun.C47_ultra_CompactDirichlet",
    "Shenfun.C47_ultra_CompactNeumann",
    "Shenfun.C47_ultra_CompactBiharmonic",
    "Shenfun.C47_ultra_UpperDirichlet",
    "Shenfun.C47_jacobi_CompactDirichlet",
    "Shenfun.C47_jacobi_CompactNeumann",
    "Shenfun.C47_jacobi_UpperDirichlet",
    "Shenfun.C47_jacobi_LowerDirichlet",
    "Shenfun.C47_gegen_CompactDirichlet_default",
    "Shenfun.C47_jacobi_Phi1",
    "Shenfun.C47_jacobi_Phi2",
    "Shenfun.C47_chebu_LowerDirichlet_refuted",
    "Shenfun.C47_ultra_LowerDirichlet_refuted",
    "Shenfun.C47_gegen_CompactDirichlet_refuted",
    "Shenfun.C47_gegen_CompactBiharmonic_refuted",
    "Shenfun.C47_ultra_Phi1",
    "Shenfun.C47_ultra_Phi2",
    "Shenfun.C47_ultra_Phi3",
    "Shenfun.C47_ultra_Phi4",
    "Shenfun.C47_ultra_Phi6",
    "Shenfun.C47_jacobi_Phi3",
    "Shenfun.C47_jacobi_Phi4"
   ],
   "note": "All N, indices and admissible parameters, including the Jacobi Phi1-Phi4 bases. Refuted (so the full claim is false of the code): LowerDirichlet of chebyshevu and ultraspherical (declared condition at the wrong end), gegenbauer CompactBiharmonic at its default lambda and CompactDirichlet for lambda != 2."
  },
  {
   "property": "C48",
   "status": "partial",
   "theorems": [
    "Shenfun.C48_cheb_ShenDirichlet",
    "Shenfun.C48_cheb_Phi1",
    "Shenfun.C48_cheb_ShenBiharmonic",
    "Shenfun.C48_cheb_Phi2",
    "Shenfun.C48_cheb_Phi3",
    "Shenfun.C48_cheb_Phi4",
    "Shenfun.C48_cheb_Phi6",
    "Shenfun.C48_cheb_Compact3",
    "Shenfun.C48_cheb_Compact4",
    "Shenfun.C48_cheb_ShenNeumann",
    "Shenfun.C48_cheb_UpperDirichlet",
    "Shenfun.C48_cheb_LowerDirichlet",
    "Shenfun.C48_cheb_DirichletNeumann",
    "Shenfun.C48_cheb_NeumannDirichlet",
    "Shenfun.C48_cheb_UpperDirichletNeumann",
    "Shenfun.C48_cheb_LowerDirichletNeumann",
    "Shenfun.C48_leg_ShenDirichlet",
    "Shenfun.C48_leg_ShenDirichletScaled",
    "Shenfun.C48_leg_Phi1",
    "Shenfun.C48_leg_ShenBiharmonic",
    "Shenfun.C48_leg_Phi2",
    "Shenfun.C48_leg_Phi3",
    "Shenfun.C48_leg_Phi4",
    "Shenfun.C48_leg_Phi6",
    "Shenfun.C48_leg_Compact3",
    "Shenfun.C48_leg_ShenNeumann",
    "Shenfun.C48_leg_UpperDirichlet",
    "Shenfun.C48_leg_LowerDirichlet",
    "Shenfun.C48_leg_DirichletNeumann",
    "Shenfun.C48_leg_NeumannDirichlet",
    "Shenfun.C48_leg_UpperDirichletNeumann",
    "Shenfun.C48_leg_BeamFixedFree",
    "Shenfun.C48_chebu_Phi1",
    "Shenfun.C48_chebu_Phi1Scaled",
    "Shenfun.C48_chebu_Phi2",
    "Shenfun.C48_chebu_Phi2Scaled",
    "Shenfun.C48_chebu_Phi3",
    "Shenfun.C48_chebu_Phi4",
    "Shenfun.C48_chebu_Phi6",
    "Shenfun.C48_chebu_CompactDirichlet",
    "Shenfun.C48_chebu_CompactDirichletScaled",
    "Shenfun.C48_chebu_CompactBiharmonic",
    "Shenfun.C48_chebu_Compact3",
    "Shenfun.C48_chebu_CompactNeumann",
    "Shenfun.C48_chebu_UpperDirichlet",
    "Shenfun.C48_ultra_Phi1",
    "Shenfun.C48_ultra_Phi2",
    "Shenfun.C48_ultra_Phi3",
    "Shenfun.C48_ultra_Phi4",
    "Shenfun.C48_ultra_Phi6",
    "Shenfun.C48_ultra_CompactDirichlet",
    "Shenfun.C48_ultra_CompactBiharmonic",
    "Shenfun.C48_ultra_UpperDirichlet",
    "Shenfun.C48_ultra_CompactNeumann",
    "Shenfun.C48_jacobi_UpperDirichlet",
    "Shenfun.C48_jacobi_LowerDirichlet",
    "Shenfun.C48_jacobi_CompactDirichlet",
    "Shenfun.C48_jacobi_Phi1",
    "Shenfun.C48_jacobi_Phi2",
    "Shenfun.C48_jacobi_Phi3",
    "Shenfun.C48_jacobi_Phi4",
    "Shenfun.C48_jacobi_CompactNeumann",
    "Shenfun.C48_cheb_Heinrichs",
    "Shenfun.C48_cheb_PolarDirichlet",
    "Shenfun.C48_cheb_CombinedShenNeumann",
    "Shenfun.C48_cheb_MikNeumann",
    "Shenfun.C48_leg_ShenBiPolar",
    "Shenfun.C48_gegen_CompactDirichlet_default"
   ],
   "note": "Proved for every fixed-stencil class of the Chebyshev, Legendre, chebyshevu, ultraspherical and Jacobi families (all parameters > -1), for Heinrichs, PolarDirichlet, CombinedShenNeumann, MikNeumann, Legendre ShenBiPolar, and gegenbauer CompactDirichlet at its default. False for the classes whose functions do not satisfy their conditions (see C27, C47 refutations: Chebyshev ShenBiPolar, the two LowerDirichlet classes, gegenbauer CompactBiharmonic), so partial; Generic classes are in C49."
  },
  {
   "property": "C49",
   "status": "proved",
   "theorems": [
    "Shenfun.C49_bnd_values",
    "Shenfun.C49_bnd_chebyshev",
    "Shenfun.C49_bnd_chebyshevu",
    "Shenfun.C49_bnd_legendre",
    "Shenfun.C49_bnd_ultraspherical",
    "Shenfun.C49_bnd_gegenbauer",
    "Shenfun.C49_bnd_jacobi",
    "Shenfun.C49_get_stencil_matrix",
    "Shenfun.C49_get_stencil_matrix_unique",
    "Shenfun.C49_get_bc_basis",
    "Shenfun.C49_get_bc_basis_both",
    "Shenfun.C49_get_bc_basis_neumann",
    "Shenfun.C49_stencil_regular",
    "Shenfun.C49_get_stencil_matrix_both",
    "Shenfun.C49_shift_regular",
    "Shenfun.C49_get_stencil_matrix_neumann"
   ],
   "note": "Symbolic solves modelled as the exact inverse of the linear system; when the system is singular the code raises and the model returns none."
  },
  {
   "property": "C50",
   "status": "proved",
   "theorems": [
    "Shenfun.C50_to_ortho_homogeneous",
    "Shenfun.C50_to_ortho",
    "Shenfun.C50_to_ortho_composite"
   ],
   "note": "General stencils, boundary lift included; sizes and slices as in the code."
  },
  {
   "property": "C51",
   "status": "partial",
   "theorems": [
    "Shenfun.C51_jacobi_partial",
    "Shenfun.C51_h",
    "Shenfun.C51_legendre",
    "Shenfun.C51_chebyshev",
    "Shenfun.C51_chebyshevu",
    "Shenfun.C51_ultraspherical",
    "Shenfun.C51_gegenbauer",
    "Shenfun.C51_coefficients"
   ],
   "note": "Full for all families; for general Jacobi parameters with alpha+beta=-1 the code's gamma divides 0 by 0 at n=0, so that single parameter line is excluded."
  },
  {
   "property": "C52",
   "status": "proved",
   "theorems": [
    "Shenfun.C52_a",
    "Shenfun.C52_b",
    "Shenfun.C52_c",
    "Shenfun.C52_a_under",
    "Shenfun.C52_a_refuted_lower",
    "Shenfun.C52_a_refuted_diagonal"
   ],
   "note": "Removable singularities of the symbolic entries are modelled in cancelled form; for pmat with alpha+beta=-1 (not Chebyshev) and alpha=-beta!=0 the code does not cancel and the refuted theorems show the recursion then fails."
  },
  {
   "property": "C53",
   "status": "proved",
   "theorems": [
    "Shenfun.C53_shifted",
    "Shenfun.C53_slices",
    "Shenfun.C53_Lmat",
    "Shenfun.C53_scale_refuted"
   ],
   "note": "ShiftedMatrix drops the scale of a scaled SparseMatrix argument (refuted theorem); Lmat never passes one."
  },
  {
   "property": "C54",
   "status": "partial",
   "theorems": [
    "Shenfun.C54_reference",
    "Shenfun.C54_reference_unit",
    "Shenfun.C54_assembled",
    "Shenfun.C54_assembled_unit",
    "Shenfun.C54_exact_reference",
    "Shenfun.C54_exact_refuted",
    "Shenfun.assembleStencil_product",
    "Shenfun.C54_test_derivative_refuted"
   ],
   "note": "Proved for every Jacobi family, stencil, size, domain, polynomial measure and trial derivative with an undifferentiated test function, and for both differentiated with unit measure. Refuted in the remaining cases: a differentiated test function with a measure gives (D(p v), Du) instead of (p Dv, Du); assemble='exact' maps the measure twice on a domain other than (-1,1). The orthogonal matrix B is taken to be the exact inner product; trial space larger than test space is not covered."
  },
  {
   "property": "C55",
   "status": "proved",
   "theorems": [
    "Shenfun.C55_extract",
    "Shenfun.C55_extract_exact"
   ],
   "note": "Nonempty matrices."
  },
  {
   "property": "C56",
   "status": "proved",
   "theorems": [
    "Shenfun.C56_leg_BLL",
    "Shenfun.C56_leg_BSDSD",
    "Shenfun.C56_leg_BSNSN",
    "Shenfun.C56_leg_BSBSB",
    "Shenfun.C56_leg_BSDL",
    "Shenfun.C56_leg_BLSD",
    "Shenfun.C56_leg_BSDL_scaled",
    "Shenfun.C56_leg_BLSD_scaled",
    "Shenfun.C56_leg_BDNDN",
    "Shenfun.C56_leg_BUDUD",
    "Shenfun.C56_leg_BLDLD",
    "Shenfun.C56_leg_BSDSD_scaled",
    "Shenfun.C56_leg_CLL",
    "Shenfun.C56_leg_CLLT",
    "Shenfun.C56_leg_ALL",
    "Shenfun.C56_leg_ALLT",
    "Shenfun.C56_leg_CLSD",
    "Shenfun.C56_leg_CLSD_scaled",
    "Shenfun.C56_leg_CSDL",
    "Shenfun.C56_leg_CSDL_scaled",
    "Shenfun.C56_leg_CSDSD",
    "Shenfun.C56_leg_CSDSDT",
    "Shenfun.C56_leg_ASDSD",
    "Shenfun.C56_leg_ASDSD_02",
    "Shenfun.C56_leg_ASDSD_20",
    "Shenfun.C56_leg_ASNSN",
    "Shenfun.C56_leg_ASNSN_02",
    "Shenfun.C56_leg_ASNSN_20",
    "Shenfun.C56_leg_ASBSB",
    "Shenfun.C56_leg_ASBSB_02",
    "Shenfun.C56_leg_ASBSB_20",
    "Shenfun.C56_leg_ADNDN",
    "Shenfun.C56_leg_ADNDN_02",
    "Shenfun.C56_leg_ADNDN_20",
    "Shenfun.C56_leg_CSDSD_10",
    "Shenfun.C56_leg_ASDSD_scaled",
    "Shenfun.C56_leg_SSBSB_04",
    "Shenfun.C56_leg_SSBSB",
    "Shenfun.C56_leg_SSBSB_40",
    "Shenfun.C56_leg_SBFBF",
    "Shenfun.C56_leg_SBFBF_04",
    "Shenfun.C56_leg_SBFBF_40",
    "Shenfun.C56_leg_ASDSD2rp1",
    "Shenfun.C56_leg_ASDSD2Trp1",
    "Shenfun.C56_leg_ASDSDrp1",
    "Shenfun.C56_leg_AUDUDrp1",
    "Shenfun.C56_leg_AUDUDrp1s",
    "Shenfun.C56_leg_GUDUDrp1s",
    "Shenfun.C56_leg_CUDUDrp1",
    "Shenfun.C56_leg_CSDSD_scaled_refuted",
    "Shenfun.C56_leg_ASDSD2rp1_scaled_refuted",
    "Shenfun.C56_leg_CLLT_rect_refuted",
    "Shenfun.C56_leg_exact_form"
   ],
   "note": "Every registered class and key of legendre/matrices.py, plus three unregistered ones. Refuted: scaled=True for CSDSDmat and ASDSD2rp1mat, CLLmatT with more test than trial functions. ALLmat needs at least as many test as trial functions. BSDSDrp1, BUDUDrp1, BUDUDrp1s, BSDSD1orp1 (not registered) not modelled. Real arithmetic."
  },
  {
   "property": "C57",
   "status": "partial",
   "theorems": [
    "Shenfun.C57_grad",
    "Shenfun.C57_grad_surface",
    "Shenfun.C57_div",
    "Shenfun.C57_div_grad",
    "Shenfun.C57_grad_vector",
    "Shenfun.C57_div_tensor",
    "Shenfun.C57_curl3",
    "Shenfun.C57_curl2",
    "Shenfun.C57_curl3_left_handed",
    "Shenfun.C57_curl3_left_handed_wrong",
    "Shenfun.C57_grad_grad_line_wrong"
   ],
   "note": "All branches proved equal to the Cartesian operators; curl only for right-handed coordinates (sign is wrong otherwise, proved), and grad of a vector not in one dimension (covariant grad(grad(u)) is wrong, proved)."
  },
  {
   "property": "C58",
   "status": "proved",
   "theorems": [
    "Shenfun.C58_update",
    "Shenfun.C58_update_tensor_forgets"
   ],
   "note": "One-dimensional space, numbers and sympy expressions as data; Project objects and the tensor-product projection of boundary data are not modelled. C58_update_tensor_forgets: update(update_tensor=True) without time restores unevaluated expressions."
  },
  {
   "property": "C59",
   "status": "partial",
   "theorems": [
    "Shenfun.C59_leg2cheb",
    "Shenfun.C59_cheb2leg",
    "Shenfun.C59_transpose",
    "Shenfun.C59_roundtrip",
    "Shenfun.C59_roundtrip'",
    "Shenfun.C59_multidim",
    "Shenfun.C59_multidim_even",
    "Shenfun.C59_multidim_odd_refuted"
   ],
   "note": "All N, all coefficient arrays over any real vector space, for the direct algorithms (exact arithmetic; floating-point Lambda approximations not modelled). Partial: the fast multipole blocks for N above use_direct are not modelled, and the multidimensional objects with n0=N//2 are refuted for every odd N>=3 (C59_multidim_odd_refuted): they drop the last coefficient's contribution to the first."
  },
  {
   "property": "C60",
   "status": "proved",
   "theorems": [
    "Shenfun.FMMLevel.C60_leg2cheb",
    "Shenfun.FMMLevel.C60_leg2chebT",
    "Shenfun.FMMLevel.C60_cheb2leg",
    "Shenfun.FMMLevel.C60_leg2cheb_built",
    "Shenfun.FMMLevel.C60_cheb2leg_built",
    "Shenfun.FMMLevel.C60_function",
    "Shenfun.FMMLevel.C60_conversionmatrix",
    "Shenfun.FMMLevel.C60_cython_size",
    "Shenfun.FMMLevel.C60_python_size",
    "Shenfun.FMMLevel.C60_cython_pos",
    "Shenfun.FMMLevel.covers_exists",
    "Shenfun.FMMLevel.covers_unique"
   ],
   "note": "Upward/downward sweeps, near-field parts and padding modelled loop by loop; error bound from the accuracy of the submatrices, and from the distance of the kernel to polynomials for submatrices sampled as getChebyshev does. RankOK (rank <= modes kept on every finer level) is a hypothesis: the code chooses ranks by a heuristic and silently drops modes if it fails. The magnitude of the polynomial approximation error of the Gamma-ratio kernel is not estimated."
  },
  {
   "property": "C61",
   "status": "proved",
   "theorems": [
    "Shenfun.C61_cheb_backward",
    "Shenfun.C61_cheb_scalar_product",
    "Shenfun.C61_chebu_backward",
    "Shenfun.C61_chebu_scalar_product",
    "Shenfun.C61_cheb_norms",
    "Shenfun.C61_chebu_norms",
    "Shenfun.C61_cheb_forward_backward",
    "Shenfun.C61_cheb_backward_forward",
    "Shenfun.C61_cheb_interpolation",
    "Shenfun.C61_chebu_forward_backward",
    "Shenfun.C61_chebu_backward_forward",
    "Shenfun.C61_complex",
    "Shenfun.C61_padded_GL_refuted",
    "Shenfun.C61_cheb_GU_refuted",
    "Shenfun.C61_padding_noninteger_refuted"
   ],
   "note": "FFTW's DCT/DST definitions are the specification; the three _refuted theorems show real deviations in the code"
  },
  {
   "property": "C62",
   "status": "proved",
   "theorems": [
    "Shenfun.C62_cheb_GC",
    "Shenfun.C62_cheb_GL",
    "Shenfun.C62_cheb_GL_sharp",
    "Shenfun.C62_chebu_GU",
    "Shenfun.C62_chebu_GC",
    "Shenfun.C62_unweighted_GC",
    "Shenfun.C62_unweighted_GL",
    "Shenfun.C62_unweighted_GU",
    "Shenfun.C62_points",
    "Shenfun.C62_dx",
    "Shenfun.C62_dx_cheb",
    "Shenfun.C62_cheb_GU_refuted",
    "Shenfun.C62_clenshaw_refuted"
   ],
   "note": "exact arithmetic"
  },
  {
   "property": "C63",
   "status": "proved",
   "theorems": [
    "Shenfun.C63_norms",
    "Shenfun.C63_forward_backward",
    "Shenfun.C63_backward_forward",
    "Shenfun.C63_interpolation",
    "Shenfun.C63_unweighted",
    "Shenfun.C63_lagrange",
    "Shenfun.C63_lobatto",
    "Shenfun.C63_lobatto_increasing",
    "Shenfun.C63_lobatto_norms",
    "Shenfun.C63_lobatto_last_norm",
    "Shenfun.C63_lobatto_roots",
    "Shenfun.C63_gauss_exists",
    "Shenfun.C63_gauss_unique",
    "Shenfun.C63_families"
   ],
   "note": "external Gauss rules (scipy roots_jacobi, numpy/fastgl leggauss) are specified by ExactRule, whose existence and uniqueness are proved; Lobatto points/weights are those of the code given the converged roots of the Newton iteration; Jacobi with a+b=-1 as C51"
  },
  {
   "property": "C64",
   "status": "proved",
   "theorems": [
    "Shenfun.C64_terminates",
    "Shenfun.C64_backward",
    "Shenfun.C64_scalar_product",
    "Shenfun.C64_converges",
    "Shenfun.C64_backward_conv",
    "Shenfun.C64_scalar_conv",
    "Shenfun.C64_small_input_refuted"
   ],
   "note": "exact arithmetic; fastgl.leggauss specified as the Gauss-Legendre rule (existence and uniqueness proved in C63); the _refuted theorem shows the absolute stopping test"
  },
  {
   "property": "C65",
   "status": "proved",
   "theorems": [
    "Shenfun.C65_poisson_add",
    "Shenfun.C65_poisson_dirichlet",
    "Shenfun.C65_poisson_compiled"
   ],
   "note": "One line of the array; C58 covers the boundary values set afterwards."
  },
  {
   "property": "C66",
   "status": "proved",
   "theorems": [
    "Shenfun.C66_poisson_neumann",
    "Shenfun.C66_first_equation"
   ],
   "note": "Constraint ((0, c),) as built by the space."
  },
  {
   "property": "C67",
   "status": "proved",
   "theorems": [
    "Shenfun.C67_helmholtz_dirichlet_general",
    "Shenfun.C67_helmholtz_dirichlet",
    "Shenfun.C67_helmholtz_neumann",
    "Shenfun.C67_neumann_generic",
    "Shenfun.C67_helmholtz_neumann_poisson",
    "Shenfun.C67_reset_refuted",
    "Shenfun.C67_numba_shared_refuted"
   ],
   "note": "Proved with the stated exceptions, which are refuted."
  },
  {
   "property": "C68",
   "status": "proved",
   "theorems": [
    "Shenfun.C68_biharmonic",
    "Shenfun.C68_biharmonic_definite",
    "Shenfun.C68_eliminable_definite",
    "Shenfun.C68_eliminable_generic",
    "Shenfun.C68_eliminable_fourth",
    "Shenfun.C68_odd_size_zero_pivot",
    "Shenfun.C68_domain_factor_wrong"
   ],
   "note": "Even number of unknowns on the reference domain; odd sizes and other domains are refuted. One line along the solved axis; exact real arithmetic; boundary matrices not included."
  },
  {
   "property": "C69",
   "status": "proved",
   "theorems": [
    "Shenfun.SpecMat.C69_BSDSD",
    "Shenfun.SpecMat.C69_BSDSD_self",
    "Shenfun.SpecMat.C69_BTT",
    "Shenfun.SpecMat.C69_BSDSN",
    "Shenfun.SpecMat.C69_BSBSB",
    "Shenfun.SpecMat.C69_BSBSB_self",
    "Shenfun.SpecMat.C69_BSBSD",
    "Shenfun.SpecMat.C69_BSBSD_self",
    "Shenfun.SpecMat.C69_CSDSN",
    "Shenfun.SpecMat.C69_CSDSD",
    "Shenfun.SpecMat.C69_CSDSD_self",
    "Shenfun.SpecMat.C69_CSBSD",
    "Shenfun.SpecMat.C69_CSBSD_self",
    "Shenfun.SpecMat.C69_CSDSB",
    "Shenfun.SpecMat.C69_CSDSB_self",
    "Shenfun.SpecMat.C69_ASBSB",
    "Shenfun.SpecMat.C69_ASBSB_self",
    "Shenfun.SpecMat.C69_CTT",
    "Shenfun.SpecMat.C69_ATT",
    "Shenfun.SpecMat.C69_CTSD",
    "Shenfun.SpecMat.C69_ASDSD",
    "Shenfun.SpecMat.C69_SSBSB",
    "Shenfun.SpecMat.C69_CLL",
    "Shenfun.SpecMat.C69_GLL_kernel",
    "Shenfun.SpecMat.C69_helmholtz",
    "Shenfun.SpecMat.C69_helmholtz_domain_refuted",
    "Shenfun.SpecMat.C69_helmholtz_neumann_numba",
    "Shenfun.SpecMat.C69_helmholtz_neumann_cython_refuted",
    "Shenfun.SpecMat.C69_biharmonic",
    "Shenfun.SpecMat.C69_biharmonic_domain_refuted",
    "Shenfun.SpecMat.C69_BSNSN",
    "Shenfun.SpecMat.C69_BSNSN_stale",
    "Shenfun.SpecMat.C69_ASNSN",
    "Shenfun.SpecMat.C69_ASNSN_scale_refuted",
    "Shenfun.SpecMat.C69_ASNSN_numba_refuted",
    "Shenfun.SpecMat.C69_ASNSN_numba",
    "Shenfun.SpecMat.C69_CTSD_factor_refuted",
    "Shenfun.SpecMat.C69_CLL_self",
    "Shenfun.SpecMat.KMat.C69_iadd",
    "Shenfun.SpecMat.KMat.C69_iadd_twice_refuted",
    "Shenfun.SpecMat.KMat.C69_iadd_matvec_refuted"
   ],
   "note": "product = form for every method on the stated scope; seven scopes where the code is wrong are refuted. One line along the axis; N at least the size for which the kernel stays inside its arrays. scale_array leaves out scales within 1e-8 of 1 (hypothesis ScaleOK)."
  },
  {
   "property": "C70",
   "status": "proved",
   "theorems": [
    "Shenfun.Fourier.C70_Bcos",
    "Shenfun.Fourier.C70_Acos",
    "Shenfun.Fourier.C70_Csin",
    "Shenfun.Fourier.C70_Acos2",
    "Shenfun.Fourier.C70_Csincos",
    "Shenfun.Fourier.C70_Bcos2",
    "Shenfun.Fourier.C70_exact",
    "Shenfun.Fourier.C70_exact_refuted",
    "Shenfun.Fourier.C70_four_points_refuted",
    "Shenfun.Fourier.C70_two_points_refuted",
    "Shenfun.Fourier.C70_domain",
    "Shenfun.Fourier.C70_domain_refuted",
    "Shenfun.Fourier.C70_constant",
    "Shenfun.Fourier.C70_constant_C2C",
    "Shenfun.Fourier.C70_constant_R2C",
    "Shenfun.Fourier.C70_nyquist_kept",
    "Shenfun.Fourier.C70_solve_C2C",
    "Shenfun.Fourier.C70_solve_R2C",
    "Shenfun.Fourier.C70_dict_last",
    "Shenfun.Fourier.C70_four_points_csincos"
   ],
   "note": "Entries for all N and pairs of modes against quadrature and integral; constant-coefficient matrices for all orders and domains against the actual integral (intervalIntegral); solve. Refutations: exact assembly, N=4/N=2 key collisions, other domains."
  },
  {
   "property": "C71",
   "status": "proved",
   "theorems": [
    "Shenfun.C71_derivatives",
    "Shenfun.C71_derivatives_limit",
    "Shenfun.C71_orthonormal",
    "Shenfun.C71_mass",
    "Shenfun.C71_discrete_orthonormal",
    "Shenfun.C71_mass_quadrature",
    "Shenfun.C71_stiffness_quadrature",
    "Shenfun.C71_stiffness_exact",
    "Shenfun.C71_stiffness_last_refuted",
    "Shenfun.C71_transform",
    "Shenfun.C71_scalar",
    "Shenfun.C71_matvec",
    "Shenfun.C71_singular",
    "Shenfun.C71_solve"
   ],
   "note": "hermvander by its recurrence, hermgauss as any rule with its defining properties; Hermite functions specified by Rodrigues' formula. matvec's default format 'cython' calls functions that do not exist and is not modelled."
  },
  {
   "property": "C72",
   "status": "proved",
   "theorems": [
    "Shenfun.C72_orthonormal",
    "Shenfun.C72_discrete_orthonormal",
    "Shenfun.C72_transform",
    "Shenfun.C72_scalar",
    "Shenfun.C72_derivative",
    "Shenfun.C72_derivative_high_refuted",
    "Shenfun.C72_derivative_all",
    "Shenfun.C72_derivative_all_three_refuted",
    "Shenfun.C72_bnd_values",
    "Shenfun.C72_dirichlet",
    "Shenfun.C72_neumann",
    "Shenfun.C72_mass",
    "Shenfun.C72_mass_dirichlet",
    "Shenfun.C72_stiffness_dirichlet"
   ],
   "note": "lagvander and lagder by their loops, laggauss as any exact rule; Laguerre polynomials specified by the explicit sum. BCDCDmat and ACDCDmat are not registered in the dictionary but are modelled."
  },
  {
   "property": "C73",
   "status": "proved",
   "theorems": [
    "Shenfun.Helm2D.C73_solver0",
    "Shenfun.Helm2D.C73_solver1",
    "Shenfun.Helm2D.C73_default",
    "Shenfun.Helm2D.C73_eigen",
    "Shenfun.Helm2D.C73_reuse",
    "Shenfun.Helm2D.C73_mixed_crash",
    "Shenfun.Helm2D.C73_mixed_refuted",
    "Shenfun.Helm2D.C73_scales_refuted",
    "Shenfun.Helm2D.C73_domain_refuted",
    "Shenfun.Helm2D.C73_mixed_nonsquare",
    "Shenfun.Helm2D.C73_history_eigen",
    "Shenfun.Helm2D.C73_history_eigen_square",
    "Shenfun.Helm2D.C73_history_default"
   ],
   "note": "One process; scipy's eigh and eig_banded are arguments assumed to return a correct decomposition; the inner 1D solver is the matrix inverse (C41); zero padding of eigenvectors left out."
  },
  {
   "property": "C74",
   "status": "proved",
   "theorems": [
    "Shenfun.Direct.C74_solver2d",
    "Shenfun.Direct.C74_solver2d_singular",
    "Shenfun.Direct.C74_solver2d_retry",
    "Shenfun.Direct.C74_solver2d_later",
    "Shenfun.Direct.C74_full_refuted",
    "Shenfun.Direct.C74_unconstrained_after",
    "Shenfun.Direct.C74_matvec_after",
    "Shenfun.Direct.C74_generic2nd",
    "Shenfun.Direct.C74_generic2nd_constraint",
    "Shenfun.Direct.C74_generic2nd_zero",
    "Shenfun.Direct.C74_generic2nd_refuted",
    "Shenfun.Direct.C74_generic2nd_wrong_row",
    "Shenfun.Direct.C74_generic2nd_index",
    "Shenfun.Direct.C74_generic3d",
    "Shenfun.Direct.C74_generic3d_damage",
    "Shenfun.Direct.C74_block",
    "Shenfun.Direct.C74_fourier_first",
    "Shenfun.Direct.C74_fourier_later",
    "Shenfun.Direct.C74_fourier_crash"
   ],
   "note": "splu is exact and raises on singular matrices; the refuted parts are bugs of the code"
  },
  {
   "property": "C75",
   "status": "proved",
   "theorems": [
    "Shenfun.C75_init",
    "Shenfun.C75_init_caller",
    "Shenfun.C75_add",
    "Shenfun.C75_matvec",
    "Shenfun.C75_add_mutates",
    "Shenfun.C75_triple",
    "Shenfun.C75_iadd_none",
    "Shenfun.C75_stale"
   ],
   "note": "use_scipy=False branch of matvec; the scipy branch of purely Fourier spaces raises an AssertionError (isinstance of a dict), not modelled"
  },
  {
   "property": "C76",
   "status": "proved",
   "theorems": [
    "Shenfun.C76_two",
    "Shenfun.C76_two_factor",
    "Shenfun.C76_fourier_factor",
    "Shenfun.C76_only_first",
    "Shenfun.C76_skip",
    "Shenfun.C76_diagonal"
   ],
   "note": "B u = rhs for two non-periodic axes with unit scale and no Fourier axis; exact factor otherwise (refutations)."
  },
  {
   "property": "C77",
   "status": "proved",
   "theorems": [
    "Shenfun.Ckpt.C77_crash",
    "Shenfun.Ckpt.C77_parallel_write",
    "Shenfun.Ckpt.C77_read",
    "Shenfun.Ckpt.C77_kill",
    "Shenfun.Ckpt.C77_fresh_loses",
    "Shenfun.Ckpt.C77_torn",
    "Shenfun.Ckpt.C77_two_stops",
    "Shenfun.Ckpt.C77_last_of_list"
   ],
   "note": "Crash safety for every history, interleaving and crash point given that the object has read the file; four refutations. Collective open is a barrier (assumption of the model)."
  },
  {
   "property": "C78",
   "status": "proved",
   "theorems": [
    "Shenfun.Xdmf.C78_domain",
    "Shenfun.Xdmf.C78_visit",
    "Shenfun.Xdmf.C78_slice",
    "Shenfun.Xdmf.C78_slice_periodic",
    "Shenfun.Xdmf.C78_slice_nonperiodic",
    "Shenfun.Xdmf.C78_slice_leak",
    "Shenfun.Xdmf.C78_mesh",
    "Shenfun.Xdmf.C78_times"
   ],
   "note": "Geometry numbers and item lengths for all shapes; three refutations with exact conditions."
  },
  {
   "property": "C79",
   "status": "proved",
   "theorems": [
    "Shenfun.C79_BUU",
    "Shenfun.C79_AP1SD",
    "Shenfun.C79_AP1SN",
    "Shenfun.C79_BP1SD",
    "Shenfun.C79_BP1SN",
    "Shenfun.C79_norm_GU",
    "Shenfun.C79_norm_GC",
    "Shenfun.C79_BUU_quadrature"
   ],
   "note": "test and trial of the same size N for the mixed matrices"
  },
  {
   "property": "C80",
   "status": "partial",
   "theorems": [
    "Shenfun.C80_kernel",
    "Shenfun.C80_default_mode2D",
    "Shenfun.C80_default_mode3D",
    "Shenfun.C80_solve1D",
    "Shenfun.C80_solve2D",
    "Shenfun.C80_solve3D",
    "Shenfun.C80_solveData2D_axis0",
    "Shenfun.C80_solveData2D_axis1",
    "Shenfun.C80_solveData3D_axis0",
    "Shenfun.C80_solveData3D_axis1",
    "Shenfun.C80_solveData3D_axis2",
    "Shenfun.C80_diagmaSolve",
    "Shenfun.C80_no_4D",
    "Shenfun.C80_diagma_beyond",
    "Shenfun.C80_tdma_one"
   ],
   "note": "The claim is proved for 1-3 dimensions and at least the minimal size; the remaining cases are refuted by theorems (4D arrays, DiagMA longer than the matrix, TDMA of size 1), so the full claim is false of the code. ThreeDMA: equal to the Python ThreeDMA (itself defective, C06)."
  },
  {
   "property": "C81",
   "status": "partial",
   "theorems": [
    "Shenfun.Mask.C81_times",
    "Shenfun.Mask.C81_apply",
    "Shenfun.Mask.C81_b2mask_1D",
    "Shenfun.Mask.C81_b2mask_3D"
   ],
   "note": "Full claim refuted by the compiled code for tensor fields over 1D/3D spaces with u.shape[1] != u.shape[2] (theorems C81_b2mask_1D, C81_b2mask_3D); proved in all other cases."
  },
  {
   "property": "C82",
   "status": "partial",
   "theorems": [
    "Shenfun.Eval.C82_eval2D",
    "Shenfun.Eval.C82_eval2D_R2C",
    "Shenfun.Eval.C82_eval2D_ok",
    "Shenfun.Eval.C82_python2",
    "Shenfun.Eval.C82_nyquist_twice",
    "Shenfun.Eval.C82_eval3D",
    "Shenfun.Eval.C82_eval3D_R2C",
    "Shenfun.Eval.C82_eval3D_ok",
    "Shenfun.Eval.C82_c2c_two_nonperiodic",
    "Shenfun.Eval.C82_r2c1",
    "Shenfun.Eval.C82_lm_cc1",
    "Shenfun.Eval.C82_lm_crc1",
    "Shenfun.Eval.C82_parallel",
    "Shenfun.Eval.C82_parallel_box"
   ],
   "note": "Exact results of the compiled and Python evaluations; refuted for the Nyquist modes of even N with the compiled methods (counted twice), for two non-Fourier axes with C2C, and for the low-memory crc1 kernel. Other low-memory kernels and the Python method in 3D are not modelled."
  },
  {
   "property": "C83",
   "status": "partial",
   "theorems": [
    "Shenfun.Convolve.C83_C2C",
    "Shenfun.Convolve.C83_R2C",
    "Shenfun.Convolve.C83_C2C_values",
    "Shenfun.Convolve.C83_product",
    "Shenfun.Convolve.C83_bounds",
    "Shenfun.Convolve.C83_fast_eq_direct",
    "Shenfun.Convolve.C83_fast_eq_direct_R2C",
    "Shenfun.Convolve.C83_accumulates",
    "Shenfun.Convolve.C83_accumulates_R2C",
    "Shenfun.Convolve.C83_padding_check_too_weak"
   ],
   "note": "Proved for the default output array; refuted: a given uv is added to, and the padding check of the fast version is too weak."
  },
  {
   "property": "C84",
   "status": "partial",
   "theorems": [
    "Shenfun.TPT.C84_backward",
    "Shenfun.TPT.C84_scalar_product",
    "Shenfun.TPT.C84_forward_galerkin",
    "Shenfun.TPT.C84_roundtrip",
    "Shenfun.TPT.C84_roundtrip_planned",
    "Shenfun.TPT.C84_twice_refuted",
    "Shenfun.TPT.C84_unseparable_refuted"
   ],
   "note": "Proved for any dimension, order of axes, history and separable measure; refuted for measures with several terms (only msdict[0] is used) and for repeated forward() on the planned array in curvilinear coordinates. Not modelled: inhomogeneous boundary values, collapse_fourier, padded spaces' scalar_product with several processes."
  },
  {
   "property": "C85",
   "status": "partial",
   "theorems": [
    "Shenfun.TPT.C85_dofs",
    "Shenfun.TPT.C85_galerkin",
    "Shenfun.TPT.C85_backward",
    "Shenfun.TPT.C85_roundtrip",
    "Shenfun.TPT.C85_data",
    "Shenfun.TPT.C85_default_order",
    "Shenfun.TPT.C85_curvilinear_refuted"
   ],
   "note": "One inhomogeneous axis. Boundary dofs, Galerkin equations and round trip for every separable measure; boundary data represented exactly when the measure does not depend on the other coordinates, refuted otherwise. The 2D branch with two inhomogeneous axes is not modelled."
  },
  {
   "property": "C86",
   "status": "partial",
   "theorems": [
    "Shenfun.InnerForm.C86_scalar",
    "Shenfun.InnerForm.C86_vector",
    "Shenfun.InnerForm.C86_recursive",
    "Shenfun.InnerForm.C86_linear",
    "Shenfun.InnerForm.C86_Inner_add",
    "Shenfun.InnerForm.C86_rank2_raises",
    "Shenfun.InnerForm.C86_Inner_mutates",
    "Shenfun.InnerForm.C86_one_component_refuted",
    "Shenfun.InnerForm.C86_empty_refuted"
   ],
   "note": "Bilinear and linear forms are proved for the code's algorithm given that split and the one-dimensional inner products are right and that matrices without diagonals have no boundary contribution; the claim is refuted without the last, for one-component vectors with a metric, and for rank-two expressions. Missing: Array trial functions, rank-two test functions, and three dimensions with two inhomogeneous axes."
  },
  {
   "property": "C87",
   "status": "partial",
   "theorems": [
    "Shenfun.Integral.C87_quadrature",
    "Shenfun.Integral.C87_exact",
    "Shenfun.Integral.C87_orthogonal",
    "Shenfun.Integral.C87_tuple",
    "Shenfun.Integral.C87_oblique_refuted"
   ],
   "note": "Proved for Jacobi-type axes whenever sqrt(det g) is one where the product of the scaling factors is (always so in orthogonal coordinates); refuted in oblique coordinates. Missing: Fourier, Laguerre and Hermite axes."
  },
  {
   "property": "C88",
   "status": "partial",
   "theorems": [
    "Shenfun.Eval.C88_eval",
    "Shenfun.Eval.C88_eval_real",
    "Shenfun.Eval.C88_components_summed",
    "Shenfun.Eval.C88_composite_refuted"
   ],
   "note": "Proved in two dimensions on one process for expressions with one component; refuted for several components and for composite spaces whose wrong slices cut rows. Missing: one and three dimensions, several processes (there the local contributions are not summed)."
  },
  {
   "property": "C89",
   "status": "partial",
   "theorems": [
    "Shenfun.Refine.C89_refine",
    "Shenfun.Refine.C89_assign",
    "Shenfun.Refine.C89_assign_vector",
    "Shenfun.Refine.C89_refine_vector",
    "Shenfun.Refine.C89_length_exact",
    "Shenfun.Refine.C89_length_multiple",
    "Shenfun.Refine.C89_double",
    "Shenfun.Refine.C89_truncate_c2c",
    "Shenfun.Refine.C89_truncate_r2c",
    "Shenfun.Refine.C89_refine_fails",
    "Shenfun.Refine.C89_same_points_wrong",
    "Shenfun.Refine.C89_nyquist_wrong",
    "Shenfun.Refine.C89_truncate_fails",
    "Shenfun.Refine.C89_truncate_r2c_wrong",
    "Shenfun.Refine.C89_assign_wrong",
    "Shenfun.Refine.C89_mixed_vector_wrong"
   ],
   "note": "C89_refine proves it for scalar spaces of any dimension (C89_refine_vector, C89_assign_vector: vector functions) when the new lengths are computed without rounding error (C89_length_exact, C89_length_multiple; C89_double: doubling in binary64), the Nyquist coefficients of real Fourier axes are real, and the number of Fourier points grows (or is odd and stays). Refuted without these: 11 to 15 points allocates 14 (int(11*(15/11))) and fails; the same even number of complex points divides the Nyquist coefficient by 4; sin x cos y on 4x2 Fourier points becomes 0; refine of a vector space with different components puts all components in the space of the first (VectorSpace(T)). Assigning to fewer points fails for polynomial bases and changes the last real Fourier coefficient."
  },
  {
   "property": "C90",
   "status": "partial",
   "theorems": [
    "Shenfun.OrthoND.C90_to_ortho",
    "Shenfun.OrthoND.C90_fourier_fails"
   ],
   "note": "Scalar tensor product spaces of at least two dimensions; several components are converted one by one in the code and not modelled, nor are the bases made by BCGeneric with a dense stencil matrix. Refuted when all bases are Fourier: naxes[0] raises IndexError although such a space is its own orthogonal space."
  }
 ]
}