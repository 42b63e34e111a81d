import Mathlib.Algebra.BigOperators.Group.Finset.Basic
import Mathlib.Algebra.Field.Basic
import Mathlib.LinearAlgebra.Matrix.Determinant.Basic

/-!
# Specification: the dense matrix stored in scipy's "dia" format

`scipy.sparse.dia_matrix((data, offsets), shape)` is documented as: `data[k, j]` is the entry of the
matrix at row `j - offsets[k]`, column `j`.
-/

namespace Shenfun.Spec

open Finset

variable {K : Type*} [Field K]

/-- Entry `(i, j)` of the matrix whose diagonals `offs` are stored in dia format in `data`. -/
def diaEntry (offs : List ℤ) (data : ℕ → ℕ → K) (i j : ℕ) : K :=
  ((List.range offs.length).map fun r =>
    if (j : ℤ) - offs.getD r 0 = i then data r j else 0).sum

/-- `(A u)_i` for an `n × n` dense matrix `A`. -/
def mulVec (n : ℕ) (A : ℕ → ℕ → K) (u : ℕ → K) (i : ℕ) : K :=
  ∑ j ∈ range n, A i j * u j

/-- `u` solves `A u = b` for the `n × n` matrix `A` (only entries with index `< n` matter). -/
def Solves (n : ℕ) (A : ℕ → ℕ → K) (u b : ℕ → K) : Prop :=
  ∀ i < n, mulVec n A u i = b i

/-- Determinant of the leading `k × k` block of `A`. -/
def leadMinor (A : ℕ → ℕ → K) (k : ℕ) : K :=
  Matrix.det (Matrix.of fun i j : Fin k => A i j)

/-- All leading principal minors of the `n × n` matrix `A` are non-zero: the textbook condition under
which Gaussian elimination without pivoting is possible (it implies that `A` is invertible). -/
def Eliminable (n : ℕ) (A : ℕ → ℕ → K) : Prop :=
  ∀ k ≤ n, leadMinor A k ≠ 0

end Shenfun.Spec
