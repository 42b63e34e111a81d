import Verif.Model.Recursions

/-!
# Recursive evaluation of polynomial series

`/repo/shenfun/optimization/numba/transforms.py:154-230`, the pointer versions of
`/repo/shenfun/optimization/cython/transforms.pyx`, the plain Python version of `restricted_product` in
`/repo/shenfun/legendre/dlt.py:707-760` and `/repo/shenfun/optimization/numba/chebyshev.py`.

Arrays are functions of the index along the transformed axis.  Coefficients and values lie in a vector space `E` over
the field `K` of the points, so that `E = ℂ` with `K = ℝ`, and the remaining axes of a multidimensional array
(`fun_2D`, `fun_3D`, `fun_4D` and the `moveaxis` branch, which all apply the one-dimensional function to every line of the
array), are instances.  Reads outside an array are not modelled; the theorems say which entries are read.
-/

namespace Shenfun

variable {K E : Type*} [Field K] [AddCommGroup E] [Module K E]

/-- `anm`, `ann`, `anp`: the rows of the array `a`,
`/repo/shenfun/optimization/numba/transforms.py:159-166, 185-192, 211-218`.  With two rows `ann` is zero. -/
structure RecRows (K : Type*) where
  anm : ℕ → K
  ann : ℕ → K
  anp : ℕ → K

/-- The test `a.shape[0] == 3`, `/repo/shenfun/optimization/numba/transforms.py:159-166`. -/
def recRows (nrows : ℕ) (a : Dia K) : RecRows K :=
  if nrows = 3 then ⟨a 0, a 1, a 2⟩ else ⟨a 0, fun _ => 0, a 1⟩

/-- The work arrays `Lnm`, `Ln`, `Lnp` and the output array. -/
structure RecSt (K E : Type*) where
  Lnm : ℕ → K
  Ln : ℕ → K
  Lnp : ℕ → K
  out : ℕ → E

/-- The update of the three work arrays at point `j`,
`/repo/shenfun/optimization/numba/transforms.py:176-178` (and 202-204, 228-230). -/
def RecSt.shift (x : ℕ → K) (s1 s2 a00 : K) (j : ℕ) (s : RecSt K E) : RecSt K E :=
  let Lnm := Function.update s.Lnm j (s.Ln j)
  let Ln := Function.update s.Ln j (s.Lnp j)
  { s with Lnm := Lnm, Ln := Ln, Lnp := Function.update s.Lnp j (s1 * (x j - a00) * Ln j - s2 * Lnm j) }

/-- `Lnm = np.ones(N)` and the two following lines, `/repo/shenfun/optimization/numba/transforms.py:158, 167-168`;
`out` is the initial content of the output array. -/
def recInit (r : RecRows K) (x : ℕ → K) (out : ℕ → E) : RecSt K E :=
  let Ln : ℕ → K := fun j => (x j - r.ann 0) / r.anm 0
  { Lnm := fun _ => 1, Ln := Ln,
    Lnp := fun j => (x j - r.ann 1) / r.anm 1 * Ln j - r.anp 1 / r.anm 1 * 1, out := out }

/-- The body of the loop over `k` of `_evaluate_expansion_all`,
`/repo/shenfun/optimization/numba/transforms.py:197-204`. -/
def evaluateBody (r : RecRows K) (x : ℕ → K) (u : ℕ → E) (N k : ℕ) (s : RecSt K E) : RecSt K E :=
  let s1 := 1 / r.anm (k + 2)
  let s2 := r.anp (k + 2) / r.anm (k + 2)
  let a00 := r.ann (k + 2)
  forN (fun j t => RecSt.shift x s1 s2 a00 j { t with out := Function.update t.out j (t.out j + t.Lnm j • u k) }) s N

/-- `_evaluate_expansion_all(input_array, output_array, xj, a)`,
`/repo/shenfun/optimization/numba/transforms.py:180-204` and
`/repo/shenfun/optimization/cython/transforms.pyx:220-270`; `M` coefficients, `N` points. -/
def evaluateExpansionAll (r : RecRows K) (x : ℕ → K) (M N : ℕ) (u : ℕ → E) : ℕ → E :=
  (forN (evaluateBody r x u N) (recInit r x fun _ => 0) M).out

/-- The inner loop of `_scalar_product`, `/repo/shenfun/optimization/numba/transforms.py:173-178`: the state and the
running sum `s`. -/
def scalarBody (r : RecRows K) (x w : ℕ → K) (u : ℕ → E) (N k : ℕ) (s : RecSt K E) : RecSt K E :=
  let s1 := 1 / r.anm (k + 2)
  let s2 := r.anp (k + 2) / r.anm (k + 2)
  let a00 := r.ann (k + 2)
  let p := forN (fun j (t : E × RecSt K E) =>
    (t.1 + (t.2.Lnm j * w j) • u j, RecSt.shift x s1 s2 a00 j t.2)) (0, s) N
  { p.2 with out := Function.update p.2.out k p.1 }

/-- `_scalar_product(input_array, output_array, xj, wj, a)`,
`/repo/shenfun/optimization/numba/transforms.py:154-179`; `M = output_array.shape[0]`, `N = xj.shape[0]`. -/
def scalarProductRec (r : RecRows K) (x w : ℕ → K) (M N : ℕ) (u out : ℕ → E) : ℕ → E :=
  (forN (scalarBody r x w u N) (recInit r x out) M).out

/-- `_scalar_product_ptr`, `/repo/shenfun/optimization/cython/transforms.pyx:272-326`, as called by `scalar_product`
(lines 175-193): `N` is the length of the input array, `Nx` the length of the output array; the loop that stores runs to
`N` and the sum over the points runs to `Nx`. -/
def scalarProductPtr (r : RecRows K) (x w : ℕ → K) (N Nx : ℕ) (u out : ℕ → E) : ℕ → E :=
  (forN (scalarBody r x w u Nx) (recInit r x fun j => if j < Nx then 0 else out j) N).out

/-- The body of the loop of `_restricted_product`, `/repo/shenfun/optimization/numba/transforms.py:220-231`. -/
def restrictedBody (r : RecRows K) (x : ℕ → K) (u : ℕ → E) (i0 a0 len k : ℕ) (s : RecSt K E) : RecSt K E :=
  let kp := k + a0
  let s1 := 1 / r.anm (kp + 2)
  let s2 := r.anp (kp + 2) / r.anm (kp + 2)
  let a00 := r.ann (kp + 2)
  let p := forN (fun j (t : E × RecSt K E) =>
    (t.1 + t.2.Lnm j • u (i0 + j), RecSt.shift (fun j => x (i0 + j)) s1 s2 a00 j t.2)) (0, s) len
  { p.2 with out := Function.update p.2.out k p.1 }

/-- The work arrays at the start of `_restricted_product`, `/repo/shenfun/optimization/numba/transforms.py:208-219`. -/
def restrictedInit (r : RecRows K) (x : ℕ → K) (Lnm0 Ln0 : ℕ → K) (i0 a0 : ℕ) (out : ℕ → E) : RecSt K E :=
  let Lnp : ℕ → K := fun j =>
    (x (i0 + j) - r.ann (1 + a0)) / r.anm (1 + a0) * Ln0 j - r.anp (1 + a0) / r.anm (1 + a0) * Lnm0 j
  { Lnm := Lnm0, Ln := Ln0, Lnp := Lnp, out := out }

/-- `_restricted_product(input_array, output_array, xj, Lnm0, Ln0, i0, i1, a0, a)`,
`/repo/shenfun/optimization/numba/transforms.py:206-231` and `/repo/shenfun/legendre/dlt.py:739-760`;
`M = len(output_array)`. -/
def restrictedProduct (r : RecRows K) (x : ℕ → K) (Lnm0 Ln0 : ℕ → K) (i0 i1 a0 M : ℕ) (u out : ℕ → E) : ℕ → E :=
  (forN (restrictedBody r x u i0 a0 (i1 - i0)) (restrictedInit r x Lnm0 Ln0 i0 a0 out) M).out

/-- `_chebval(x, c, ...)` at one point, `/repo/shenfun/optimization/numba/chebyshev.py:23-44`.  `N = len(c)`; negative
indices `c[-i]` are `c (N - i)`. -/
def chebval (N : ℕ) (c : ℕ → E) (x : K) : E :=
  let p : E × E :=
    if N = 1 then (c 0, 0)
    else if N = 2 then (c 0, c 1)
    else forN (fun t (p : E × E) => let i := t + 3; (c (N - i) - p.2, p.1 + (2 * x) • p.2)) (c (N - 2), c (N - 1)) (N - 2)
  p.1 + x • p.2

/-! ## The recursion matrix handed to these functions -/

/-- `get_recursion_matrix(M, N)`, `/repo/shenfun/spectralbase.py:1352-1354`: `pmat(a, 1, alpha, beta, M, N, gn)`, with the
main diagonal left out when its symbolic expression vanishes (`/repo/shenfun/jacobi/recursions.py:454-456`).  When
`alpha + beta = -1` and the family is not Chebyshev the code evaluates the entry `(1, 0)` to `nan`. -/
noncomputable def recursionMatrix (nan a b : ℝ) (gn : ℕ → ℝ) (M N : ℕ) : SM ℝ :=
  let e : ℤ → ℤ → ℝ := fun i j => if i = 1 ∧ j = 0 ∧ a + b = -1 ∧ a ≠ b then nan else matpow (aEntry a b) 1 gn i j
  if a ^ 2 = b ^ 2 then SM.new [(-1, diagOf e (-1)), (1, diagOf e 1)] M N 1
  else SM.new [(-1, diagOf e (-1)), (0, diagOf e 0), (1, diagOf e 1)] M N 1

/-- `get_recursion_matrix(M, N)` of the Legendre spaces, `/repo/shenfun/legendre/bases.py:239-242`. -/
noncomputable def legRecursionMatrix (M N : ℕ) : SM ℝ :=
  SM.new [(-1, fun k => ((k:ℝ) + 1) / (2 * k + 1)), (1, fun k => ((k:ℝ) + 1) / (2 * k + 3))] M N 1

/-- `get_recursion_matrix(...).diags('dia').data` read as rows, `/repo/shenfun/spectralbase.py:490, 557`. -/
noncomputable def SM.recRows (A : SM ℝ) : RecRows ℝ := Shenfun.recRows A.toDia.1.length A.toDia.2

end Shenfun
