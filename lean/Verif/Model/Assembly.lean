import Verif.Model.Recursions

/-!
# Assembly of spectral matrices by the stencil method

`/repo/shenfun/matrixbase.py` (`_assemble_stencil`, `SpectralMatrix.__init__`, `extract_diagonal_matrix`) and
`/repo/shenfun/spectralbase.py` (`inner_product`, domain maps).  Exact real arithmetic; a measure is a polynomial in the
physical coordinate.
-/

namespace Shenfun

open Polynomial Spec

/-- `SpectralBase.domain_factor` with the reference domain `(-1, 1)`, `/repo/shenfun/spectralbase.py:873-887`. -/
noncomputable def domainFactorR (l u : ℝ) : ℝ := if |(u - l) - 2| < 1e-12 then 1 else 2 / (u - l)

/-- `SpectralBase.map_true_domain` applied to the symbol `x`, `/repo/shenfun/spectralbase.py:675-689`. -/
noncomputable def mapTrue (l u : ℝ) : ℝ[X] :=
  if l = -1 ∧ u = 1 then X else C l + C (1 / domainFactorR l u) * (X - C (-1))

/-- `map_expression_true_domain`, `/repo/shenfun/spectralbase.py:691-710`, called at
`/repo/shenfun/spectralbase.py:2320`. -/
noncomputable def measureToReference (l u : ℝ) (p : ℝ[X]) : ℝ[X] := p.comp (mapTrue l u)

/-- The sum of `sc * pmat(a, qi, alpha, beta, N, N, gn)` over the terms of the measure,
`/repo/shenfun/matrixbase.py:2022-2031`. -/
noncomputable def measureMatrix (alf bet : ℝ) (gn : ℕ → ℝ) (N : ℕ) (p : ℝ[X]) (m n : ℕ) : ℝ :=
  p.sum fun q c => c * (pmat (aEntry alf bet) q gn N N).denseAt m n

/-- Entry `(i, j)` of the matrix formed by `_assemble_stencil`, `/repo/shenfun/matrixbase.py:2004-2035`: `K` and `S` are
the stencil matrices of test and trial space (`Nv`, `Nu` their numbers of quadrature points), `B` the matrix
`inner_product((Tv, test[1]), (Tu, trial[1]))` of the orthogonal bases. -/
noncomputable def assembleStencil (alf bet : ℝ) (gn : ℕ → ℝ) (Nv Nu : ℕ) (K S : SM ℝ) (B : ℕ → ℕ → ℝ) (p : ℝ[X])
    (i j : ℕ) : ℝ :=
  if p = 1 then ∑ n ∈ Finset.range Nv, ∑ o ∈ Finset.range Nu,
    (K.scale * diagsEntry K.diags i n) * B n o * (S.scale * diagsEntry S.diags j o)
  else ∑ n ∈ Finset.range Nv, ∑ m ∈ Finset.range Nv, ∑ o ∈ Finset.range Nu,
    (K.scale * diagsEntry K.diags i n) * measureMatrix alf bet gn Nv p m n * B m o * (S.scale * diagsEntry S.diags j o)

/-- Entry of `inner_product((test, t), (trial, r), measure)` through `SpectralMatrix.__init__`,
`/repo/shenfun/matrixbase.py:681-688, 2004-2035` and `/repo/shenfun/spectralbase.py:2315-2330`: the measure is mapped to the
reference domain, the reference matrix is scaled with the domain factor.  The mapped measure is assembled as a whole
instead of term by term; dropping of negligible diagonals is in `extractDiagonal`. -/
noncomputable def stencilEntry (alf bet : ℝ) (gn : ℕ → ℝ) (Nv Nu : ℕ) (K S : SM ℝ) (B : ℕ → ℕ → ℝ) (l u : ℝ)
    (t r : ℕ) (p : ℝ[X]) (i j : ℕ) : ℝ :=
  (if domainFactorR l u ≠ 1 then domainFactorR l u ^ ((t + r : ℤ) - 1) else 1) *
    assembleStencil alf bet gn Nv Nu K S B (measureToReference l u p) i j

/-- `_get_matrix` for `'exact'` outside the Chebyshev family, `/repo/shenfun/matrixbase.py:1916-1948`: the measure it is given
(already in reference coordinates) is mapped to the true domain again; the integral is over the reference domain with
weight `(1-x)^alf (1+x)^bet`.  `ψ` and `φ` are the reference basis functions. -/
noncomputable def exactEntry (alf bet : ℝ) (l u : ℝ) (ψ φ : ℝ[X]) (t r : ℕ) (p : ℝ[X]) : ℝ :=
  (if domainFactorR l u ≠ 1 then domainFactorR l u ^ ((t + r : ℤ) - 1) else 1) *
    ∫ x in (-1:ℝ)..1, (1 - x) ^ alf * (1 + x) ^ bet *
      ((measureToReference l u (measureToReference l u p)) * derivative^[t] ψ * derivative^[r] φ).eval x

/-- `abs(u).max()` of a vector of length `n`. -/
noncomputable def absMax (n : ℕ) (f : ℕ → ℝ) : ℝ := (List.range n).foldl (fun a i => max a |f i|) 0

/-- `M.diagonal(k)` of a `rows × cols` matrix: its length and its entries. -/
def diagLength (rows cols : ℕ) (k : ℤ) : ℕ := if 0 ≤ k then min rows (cols - k.toNat) else min (rows - (-k).toNat) cols

/-- `abs(M).max()`. -/
noncomputable def matMax (rows cols : ℕ) (M : ℕ → ℕ → ℝ) : ℝ :=
  absMax rows fun i => absMax cols fun j => M i j

/-- `extract_diagonal_matrix`, `/repo/shenfun/matrixbase.py:1736-1766`, for a nonempty matrix: a diagonal within the band
is kept when its largest entry exceeds both tolerances. -/
noncomputable def extractDiagonal (M : ℕ → ℕ → ℝ) (rows cols : ℕ) (lower upper : Option ℕ) (abstol reltol : ℝ) : SM ℝ :=
  let ub : ℕ := match upper with | none => cols | some b => min (b + 1) cols
  let lb : ℕ := match lower with | none => rows - 1 | some b => min b (rows - 1)
  let diag : ℤ → ℕ → ℝ := fun k t => if 0 ≤ k then M t (t + k.toNat) else M (t + (-k).toNat) t
  let keep : ℤ → Prop := fun k => abstol < absMax (diagLength rows cols k) (diag k) ∧
    reltol < absMax (diagLength rows cols k) (diag k) / matMax rows cols M
  open Classical in
  SM.new ((((List.range (lb + ub)).map fun i : ℕ => (i : ℤ) - (lb : ℤ)).filter fun k => decide (keep k)).map
    fun k => (k, diag k)) rows cols 1

end Shenfun
