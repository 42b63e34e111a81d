import Mathlib.Data.Real.Basic
import Mathlib.LinearAlgebra.Matrix.NonsingularInverse
import Mathlib.Logic.Equiv.Fin.Basic

/-!
# `Helmholtz_2dirichlet`, `/repo/shenfun/legendre/la.py:9-165`

One process.  The matrices are the dense matrices of the four one-dimensional matrices, of the size of the space without
boundary functions: the two rows and columns by which the code pads eigenvectors (with zeros) and eigenvalues (with ones) are
left out, as are the transfers between pencils.  The eigenvalue routines of scipy are arguments; they return eigenvectors (as
columns) and eigenvalues.  The one-dimensional solver `SolverGeneric1ND` along the second axis is the inverse of the matrix
(that it is, is property C41).
-/

namespace Shenfun.Helm2D

open Matrix

/-- Eigenvectors and eigenvalues. -/
abbrev Eig (n : ℕ) := Matrix (Fin n) (Fin n) ℝ × (Fin n → ℝ)

/-- `scipy_la.eigh(A, B)` and `scipy_la.eig_banded(B)`, for every size. -/
structure Libs where
  eigh : ∀ n, Matrix (Fin n) (Fin n) ℝ → Matrix (Fin n) (Fin n) ℝ → Eig n
  banded : ∀ n, Matrix (Fin n) (Fin n) ℝ → Eig n

/-- What `__init__` extracts from the three terms, `/repo/shenfun/legendre/la.py:28-63`: the matrices and the scales of the terms
`BUB`, `AUB`, `BUA`. -/
structure Problem (n0 n1 : ℕ) where
  A : Matrix (Fin n0) (Fin n0) ℝ
  B : Matrix (Fin n0) (Fin n0) ℝ
  A1 : Matrix (Fin n1) (Fin n1) ℝ
  B1 : Matrix (Fin n1) (Fin n1) ℝ
  a0 : ℝ
  a1 : ℝ
  a2 : ℝ

/-- `self.V`, `self.lmbda`: empty, for the first axis, or of the second axis (line 103). -/
inductive Cache (n0 : ℕ)
  | empty
  | first (e : Eig n0)
  | second

/-- The attributes that calls change. -/
structure State (n0 n1 : ℕ) where
  V : Cache n0 := .empty
  Vx : Option (Eig n0) := none
  Vy : Option (Eig n1) := none

/-- An eigen decomposition taken over for an axis with the same number of points. -/
def Eig.cast {n0 n1 : ℕ} (h : n0 = n1) (e : Eig n0) : Eig n1 :=
  (e.1.reindex (finCongr h) (finCongr h), fun i => e.2 ((finCongr h).symm i))

/-- The solution in eigen space, `/repo/shenfun/legendre/la.py:110-124`. -/
noncomputable def solve0 {n0 n1 : ℕ} (a0 : ℝ) (ex : Eig n0) (ey : Eig n1) (b : Matrix (Fin n0) (Fin n1) ℝ) : Matrix (Fin n0) (Fin n1) ℝ :=
  let u := ex.1ᵀ * b
  let u := u * ey.1
  let u : Matrix (Fin n0) (Fin n1) ℝ := Matrix.of fun i j => u i j / (a0 + ex.2 i + ey.2 j)
  let u := ex.1 * u
  u * ey.1ᵀ

/-- The solution with one-dimensional problems along the second axis, `/repo/shenfun/legendre/la.py:137-162`: scales
`self.BB.scale + 1/lmbda` for `B1` and `self.scale['AUB']` for `A1`. -/
noncomputable def solve1 {n0 n1 : ℕ} (P : Problem n0 n1) (e : Eig n0) (b : Matrix (Fin n0) (Fin n1) ℝ) : Matrix (Fin n0) (Fin n1) ℝ :=
  let r := e.1ᵀ * b
  let r : Matrix (Fin n0) (Fin n1) ℝ := Matrix.of fun i j => r i j / e.2 i
  let w : Matrix (Fin n0) (Fin n1) ℝ := Matrix.of fun i => ((P.a0 + 1 / e.2 i) • P.B1 + P.a1 • P.A1)⁻¹ *ᵥ r.row i
  e.1 * w

/-- `__call__`, `/repo/shenfun/legendre/la.py:91-165`; `solver` is 0 or 1 (others return `u` as it was and are left out).  The
result `none` is an exception. -/
noncomputable def call {n0 n1 : ℕ} (L : Libs) (P : Problem n0 n1) (st : State n0 n1) (solver : Fin 2) (b : Matrix (Fin n0) (Fin n1) ℝ) :
    Option (Matrix (Fin n0) (Fin n1) ℝ) × State n0 n1 :=
  if solver = 0 then
    let st : State n0 n1 := match st.V with
      | .empty =>
        let ex := L.eigh n0 P.A P.B
        if h : n0 = n1 then { V := .first ex, Vx := some ex, Vy := some (ex.cast h) }
        else { V := .second, Vx := some ex, Vy := some (L.eigh n1 P.A1 P.B1) }
      | _ => st
    match st.Vx, st.Vy with
    | some ex, some ey => (some (solve0 P.a0 ex ey b), st)
    | _, _ => (none, st)
  else
    let st : State n0 n1 := match st.V with
      | .empty => { st with V := .first (L.banded n0 P.B) }
      | _ => st
    match st.V with
    | .first e => (some (solve1 P e b), st)
    | _ => (none, st)

/-- Calls one after the other on the same object. -/
noncomputable def calls {n0 n1 : ℕ} (L : Libs) (P : Problem n0 n1) : State n0 n1 → List (Fin 2 × Matrix (Fin n0) (Fin n1) ℝ) →
    List (Option (Matrix (Fin n0) (Fin n1) ℝ))
  | _, [] => []
  | st, (s, b) :: l => let r := call L P st s b; r.1 :: calls L P r.2 l

end Shenfun.Helm2D
