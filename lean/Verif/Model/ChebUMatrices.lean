import Verif.Model.SpectralMatrices
import Verif.Model.Recursions
import Verif.Model.Stencil

/-!
# Hard-coded matrices of the second-kind Chebyshev family, `/repo/shenfun/chebyshevu/matrices.py`

`N` is the number of quadrature points of both spaces (test and trial space of the same size); `scaled` is
`test[0].is_scaled()`.  Exact real arithmetic.
-/

namespace Shenfun

namespace ChebUMat

/-- `chebyshevu.bases.Orthogonal.l2_norm_sq` / `L2_norm_sq`, `/repo/shenfun/chebyshevu/bases.py:178-188`, through
`get_norm_sq`, `/repo/shenfun/spectralbase.py:2344-2368`; `gc` is true for `method='quadrature'` with `quad='GC'`. -/
noncomputable def normSq (gc : Bool) (N k : ℕ) : ℝ :=
  if gc = true ∧ k + 1 = N then Real.pi / 2 * 2 else Real.pi / 2

/-- `BUUmat.assemble`, `/repo/shenfun/chebyshevu/matrices.py:88-92`. -/
noncomputable def BUU (gc : Bool) (tN uN : ℕ) : DMat := [(0, .array (min tN uN) (normSq gc tN))]

/-- Common body of `BP1SDmat.assemble` and `BP1SNmat.assemble`, `/repo/shenfun/chebyshevu/matrices.py:105-125, 166-183`:
`st` is the stencil of the trial space; `K.shape` is set to `(N, N+2)`, `B2 = Lmat(2, 0, 2, ...)` is multiplied from the
left by `diag(k+2)` when the test space is not scaled, and four diagonals of `B2 * K.T` are kept. -/
noncomputable def BP1 (scaled : Bool) (st : Stencil) (fullN : ℕ) : DMat :=
  let N := fullN - 2
  let K : SM ℝ := { stencilMatrix st fullN 2 with rows := N, cols := N + 2 }
  let B2 : ℕ → ℕ → ℝ := fun k i =>
    let L := Lmat 2 0 2 N (N+2) (-(1/2)) (-(1/2)) (cnF (-(1/2)) (-(1/2))) k i
    if scaled then L else ((k:ℝ) + 2) * L
  let M : ℕ → ℕ → ℝ := fun k j => ∑ i ∈ Finset.range (N+2), B2 k i * K.denseAt j i
  [-2, 0, 2, 4].map fun o : ℤ => (o, .array (diagLength N N o) (diagOf (fun i j => M i.toNat j.toNat) o))

/-- `BP1SDmat`, `/repo/shenfun/chebyshevu/matrices.py:94-125`. -/
noncomputable def BP1SD (scaled : Bool) (N : ℕ) : DMat := BP1 scaled ChebStencil.ShenDirichlet N

/-- `BP1SNmat`, `/repo/shenfun/chebyshevu/matrices.py:154-183`. -/
noncomputable def BP1SN (scaled : Bool) (N : ℕ) : DMat := BP1 scaled ChebStencil.ShenNeumann N

/-- `AP1SDmat`, `/repo/shenfun/chebyshevu/matrices.py:127-152`. -/
noncomputable def AP1SD (scaled : Bool) (N : ℕ) : DMat :=
  if scaled then [(0, .scalar (-1)), (2, .scalar 1)]
  else [(0, .array (N-2) fun k => -((k:ℝ) + 2)), (2, .array (N-2-2) fun k => (k:ℝ) + 2)]

/-- `AP1SNmat`, `/repo/shenfun/chebyshevu/matrices.py:185-210`. -/
noncomputable def AP1SN (scaled : Bool) (N : ℕ) : DMat :=
  if scaled then [(0, .array (N-2) fun k => -((k:ℝ) / (k + 2)) ^ 2), (2, .scalar 1)]
  else [(0, .array (N-2) fun k => -(k:ℝ) ^ 2 / (k + 2)), (2, .array (N-2-2) fun k => (k:ℝ) + 2)]

end ChebUMat

/-- Stencil of `chebyshevu.bases.Phi1`, `/repo/shenfun/chebyshevu/bases.py:403-414`. -/
noncomputable def ChebUStencil.phi1 (scaled : Bool) : Stencil :=
  if scaled then ChebUStencil.Phi1Scaled else ChebUStencil.Phi1

end Shenfun
