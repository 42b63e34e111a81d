import Verif.Spec.Dense

/-!
# Specification: the dense matrix described by a dictionary of diagonals

`scipy.sparse.diags` convention: the diagonal with offset `k ≥ 0` holds at position `t` the entry
`(t, t+k)`, the one with offset `k < 0` holds at position `t` the entry `(t-k, t)`.
-/

namespace Shenfun.Spec

variable {K : Type*} [Field K]

/-- Contribution of one diagonal `(k, v)` to entry `(i, j)`. -/
def diagEntry (d : ℤ × (ℕ → K)) (i j : ℕ) : K :=
  if (j : ℤ) = i + d.1 then d.2 (if 0 ≤ d.1 then i else j) else 0

/-- Entry `(i, j)` of the matrix with the given diagonals. -/
def diagsEntry (L : List (ℤ × (ℕ → K))) (i j : ℕ) : K := (L.map fun d => diagEntry d i j).sum

end Shenfun.Spec
