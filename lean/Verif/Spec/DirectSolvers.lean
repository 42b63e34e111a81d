import Mathlib.Data.Matrix.Mul

/-!
# What a constrained linear solve is

Independent of the model: only matrices and vectors.
-/

namespace Shenfun.Spec

variable {K : Type*} [CommRing K]

/-- `u` solves `A u = b` except that, for every constraint `(row, val)`, equation `row` is replaced by
`u[row] = val`. -/
def SolvesWith {n : ℕ} (A : Matrix (Fin n) (Fin n) K) (cons : List (Fin n × K)) (b u : Fin n → K) : Prop :=
  (∀ c ∈ cons, u c.1 = c.2) ∧ ∀ i, (∀ c ∈ cons, c.1 ≠ i) → A.mulVec u i = b i

/-- The matrix of the replaced system: the rows in `R` are rows of the identity. -/
def replaceRows {n : ℕ} (A : Matrix (Fin n) (Fin n) K) (R : Finset (Fin n)) : Matrix (Fin n) (Fin n) K :=
  Matrix.of fun i j => if i ∈ R then (if i = j then 1 else 0) else A i j

/-- The constrained rows. -/
def rowsOf {n : ℕ} (cons : List (Fin n × K)) : Finset (Fin n) := (cons.map Prod.fst).toFinset

end Shenfun.Spec
