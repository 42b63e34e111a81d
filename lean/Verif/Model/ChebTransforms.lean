import Verif.Spec.DCT
import Verif.Model.ChebMatrices

/-!
# Quadrature and fast transforms of the Chebyshev spaces

`/repo/shenfun/chebyshev/bases.py` and `/repo/shenfun/chebyshevu/bases.py`.

Arrays are functions of the index along the transformed axis with values in a real vector space, so that complex and
multidimensional arrays are instances.  `N` is the number of coefficients, `M = int(padding_factor*N)` the number of
quadrature points (`shape(False)`, `/repo/shenfun/spectralbase.py:857-871`).  `dealias_direct` is off.
-/

namespace Shenfun

open Real Spec

variable {E : Type*} [AddCommGroup E] [Module ℝ E]

/-- The `quad` argument, `/repo/shenfun/chebyshev/bases.py:175`, `/repo/shenfun/chebyshevu/bases.py:99`. -/
inductive ChebQuad
  | gc | gl | gu
  deriving DecidableEq

/-- Points, weighted and unweighted: `/repo/shenfun/chebyshev/bases.py:206-249`,
`/repo/shenfun/chebyshevu/bases.py:121-152`.  For GL the weighted branch is `-(chebpts2(N))`, where
`chebpts2(N) = cos(linspace(-pi, 0, N))`; `chebgauss` returns `cos(pi*arange(1, 2N, 2)/(2N))`. -/
noncomputable def chebPts : ChebQuad → ℕ → ℕ → ℝ
  | .gl, N, j => -cos (-π + j * (π / ((N:ℝ) - 1)))
  | .gc, N, j => cos (π * (1 + 2 * j) / (2 * N))
  | .gu, N, j => cos ((j + 1) * π / (N + 1))

/-- Points of the unweighted branch, `/repo/shenfun/chebyshev/bases.py:224, 235, 244-245`. -/
noncomputable def chebPtsU : ChebQuad → ℕ → ℕ → ℝ
  | .gl, N, j => cos (j * π / ((N:ℝ) - 1))
  | .gc, N, j => cos (π * (1 + 2 * j) / (2 * N))
  | .gu, N, j => cos ((j + 1) * π / (N + 1))

/-- Weights of `chebyshev.bases.Orthogonal.points_and_weights(weighted=True)`,
`/repo/shenfun/chebyshev/bases.py:206-220`. -/
noncomputable def chebWts : ChebQuad → ℕ → ℕ → ℝ
  | .gl, N, j => π / ((N:ℝ) - 1) / (if j = 0 then 2 else 1) / (if j = N - 1 then 2 else 1)
  | .gc, N, _ => π / N
  | .gu, N, _ => π / (N + 1)

/-- Weights of `chebyshevu.bases.Orthogonal.points_and_weights(weighted=True)`, GC and GU,
`/repo/shenfun/chebyshevu/bases.py:120-128`. -/
noncomputable def chebuWts (q : ChebQuad) (N j : ℕ) : ℝ := chebWts q N j * (1 - chebPts q N j ^ 2)

/-- `d[::2] = (2./n)/np.hstack((1., 1.-k*k))`, `k = 2*(1+arange((N-1)//2))`, zero otherwise,
`/repo/shenfun/chebyshev/bases.py:225-227, 236-238`. -/
noncomputable def ccD (n : ℝ) (i : ℕ) : ℝ :=
  if i % 2 = 0 then 2 / n / (if i = 0 then 1 else 1 - (i:ℝ) * i) else 0

/-- Weights for `weighted=False`, `/repo/shenfun/chebyshev/bases.py:222-252`, `/repo/shenfun/chebyshevu/bases.py:131-152`. -/
noncomputable def chebWtsU : ChebQuad → ℕ → ℕ → ℝ
  | .gl, N, j => dct1 N (ccD ((N:ℝ) - 1)) j * (if j = 0 then 1/2 else 1) * (if j = N - 1 then 1/2 else 1)
  | .gc, N, j => dct3 N (ccD N) j
  | .gu, N, j => dst1 N (fun i => if i % 2 = 0 then 2 / ((i:ℝ) + 1) else 0) j * (sin ((j + 1) * π / (N + 1)) / (N + 1))

/-- `_padding_backward`, `/repo/shenfun/spectralbase.py:1369-1378`: the coefficients in a longer array filled with zeros.
Without padding the array is used as it is. -/
def padArr (N : ℕ) (u : ℕ → E) (k : ℕ) : E := if k < N then u k else 0

/-- Fast `backward` of `chebyshev.bases.Orthogonal`, `/repo/shenfun/chebyshev/bases.py:177-185, 315-338`. -/
noncomputable def chebBackwardFast : ChebQuad → ℕ → ℕ → (ℕ → E) → ℕ → E
  | .gc, N, M, u, j => (1/2 : ℝ) • dct3 M (padArr N u) j + (1/2 : ℝ) • padArr N u 0
  | .gl, N, M, u, j => (1/2 : ℝ) • dct1 M (padArr N u) j + (1/2 : ℝ) • padArr N u 0 +
      (if j % 2 = 0 then (1/2 : ℝ) • padArr N u (M - 1) else -((1/2 : ℝ) • padArr N u (M - 1)))
  | .gu, N, M, u, j => dct1 M (padArr N u) j

/-- Fast `scalar_product` of `chebyshev.bases.Orthogonal`, `/repo/shenfun/chebyshev/bases.py:340-353`.  `df` is the domain
factor, `pf` the padding factor, `old` the previous content of the output buffer (there is no branch for GU). -/
noncomputable def chebScalarFast : ChebQuad → ℝ → ℝ → ℕ → ℕ → (ℕ → E) → (ℕ → E) → ℕ → E
  | .gc, df, pf, N, M, _, u, k => (π / (2 * df * N * pf)) • dct2 M u k
  | .gl, df, pf, N, M, _, u, k => (π / (2 * df * (N * pf - 1))) • dct1 M u k
  | .gu, _, _, _, _, old, _, k => old k

/-- `BTTmat.solve`, `/repo/shenfun/chebyshev/matrices.py:141-170`, called by `apply_inverse_mass`,
`/repo/shenfun/spectralbase.py:560-577`. -/
noncomputable def bttSolve (q : ChebQuad) (df : ℝ) (N : ℕ) (b : ℕ → E) (k : ℕ) : E :=
  let u := (2 / π * df) • b k
  let u := if k = 0 then (1/2 : ℝ) • u else u
  if q = .gl ∧ k = N - 1 then (1/2 : ℝ) • u else u

/-- `forward`, `/repo/shenfun/spectralbase.py:234-263`: scalar product, then inverse mass matrix. -/
noncomputable def chebForward (q : ChebQuad) (df pf : ℝ) (N M : ℕ) (old u : ℕ → E) : ℕ → E :=
  bttSolve q df N (chebScalarFast q df pf N M old u)

/-- Fast `scalar_product` of `chebyshevu.bases.Orthogonal`, `/repo/shenfun/chebyshevu/bases.py:226-239`.  The sine array has
length `N` and multiplies the input of length `M`, so `M = N`. -/
noncomputable def chebuScalarFast : ChebQuad → ℝ → ℝ → ℕ → (ℕ → E) → ℕ → E
  | .gu, df, pf, N, u, k => (π / (2 * (N + 1) * pf * df)) • dst1 N (fun j => sin (π / (N + 1) * (j + 1)) • u j) k
  | .gc, df, pf, N, u, k => (π / (2 * N * pf * df)) • dst2 N (fun j => sin ((j + 1/2) * π / N) • u j) k
  | .gl, _, _, _, _, _ => 0

/-- Fast `backward` of `chebyshevu.bases.Orthogonal`, `/repo/shenfun/chebyshevu/bases.py:241-262`, `M = N`. -/
noncomputable def chebuBackwardFast : ChebQuad → ℕ → (ℕ → E) → ℕ → E
  | .gu, N, u, j => (1 / (2 * sin ((j + 1) * π / (N + 1)))) • dst1 N u j
  | .gc, N, u, j => (1 / sin ((j + 1/2) * π / N)) • ((1/2 : ℝ) • dst3 N u j +
      (if j % 2 = 0 then (1/2 : ℝ) • u (N - 1) else -((1/2 : ℝ) • u (N - 1))))
  | .gl, _, _, _ => 0

/-- `chebyshevu.bases.Orthogonal.l2_norm_sq`, `/repo/shenfun/chebyshevu/bases.py:181-190`. -/
noncomputable def chebuNormSq (q : ChebQuad) (N k : ℕ) : ℝ := if q = .gc ∧ k = N - 1 then π / 2 * 2 else π / 2

/-- `forward` of `chebyshevu.bases.Orthogonal`: the mass matrix is the diagonal matrix `l2_norm_sq/domain_factor`
(`/repo/shenfun/chebyshevu/matrices.py:83-87`, `/repo/shenfun/matrixbase.py:692-695`), solved by division. -/
noncomputable def chebuForward (q : ChebQuad) (df pf : ℝ) (N : ℕ) (u : ℕ → E) (k : ℕ) : E :=
  (chebuNormSq q N k * df⁻¹)⁻¹ • chebuScalarFast q df pf N u k

/-- `DCTWrap.__call__`, `/repo/shenfun/chebyshev/bases.py:100-115`: a real transform applied to real and imaginary part. -/
noncomputable def dctWrap (f : (ℕ → ℝ) → ℕ → ℝ) (u : ℕ → ℂ) (k : ℕ) : ℂ :=
  ⟨f (fun j => (u j).re) k, f (fun j => (u j).im) k⟩

/-- One pass of the loop of `dx` over the axes, `/repo/shenfun/utilities/__init__.py:51-60`: the weighted sum along axis `ax`
is written to all entries of the line.  (`redistribute` moves the data between processes and is not modelled; for one axis
the code returns the sum directly, lines 47-49.) -/
def dxStep {d : ℕ} (n : Fin d → ℕ) (w : Fin d → ℕ → ℝ) (uc : (Fin d → ℕ) → ℝ) (ax : Fin d) (i : Fin d → ℕ) : ℝ :=
  ∑ j ∈ Finset.range (n ax), uc (Function.update i ax j) * w ax j

/-- `dx`, `/repo/shenfun/utilities/__init__.py:26-61`. -/
def dxND {d : ℕ} (n : Fin d → ℕ) (w : Fin d → ℕ → ℝ) (u : (Fin d → ℕ) → ℝ) : ℝ :=
  (List.finRange d).foldl (dxStep n w) u fun _ => 0

/-- `clenshaw_curtis1D` with `quad='GC'`, `/repo/shenfun/utilities/__init__.py:76-81`. -/
noncomputable def clenshawCurtisGC (N : ℕ) (u : ℕ → ℝ) : ℝ := √(∑ j ∈ Finset.range N, u j * chebWtsU .gc N j)

end Shenfun
