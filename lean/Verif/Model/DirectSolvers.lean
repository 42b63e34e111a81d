import Mathlib.LinearAlgebra.Matrix.NonsingularInverse
import Mathlib.LinearAlgebra.Matrix.RowCol
import Mathlib.Data.Fintype.BigOperators

/-!
# Model of the direct sparse solvers of shenfun/la.py

`Solver2D` (also `Solver3D`, `SolverND`: la.py 1051-1180), `SolverGeneric2ND` (la.py 846-1021) and
`BlockMatrixSolver` (la.py 1436-1540).

Simplifications: the assembled scipy matrix is a square matrix over a field (the assembly of the Kronecker
products is C36, the flattening of blocks is C34); `scipy.sparse.linalg.splu` is exact, raises on a singular
matrix and remembers a private copy of the matrix it has factored; constraint rows are non-negative and in range
except where the model returns `none` for an exception; the boundary matrices are empty; one MPI rank; the
real/imaginary split of a real matrix with complex right-hand side is two calls of the same solve.
-/

namespace Shenfun.Direct

variable {K : Type*} [Field K] [DecidableEq K]

/-- The object returned by `scipy.sparse.linalg.splu`: it keeps the matrix it was built from. -/
structure Lu (n : ℕ) (K : Type*) where
  A : Matrix (Fin n) (Fin n) K

/-- `splu(A)`, la.py 1131: `none` is the RuntimeError "Factor is exactly singular". -/
def splu {n : ℕ} (A : Matrix (Fin n) (Fin n) K) : Option (Lu n K) := if A.det = 0 then none else some ⟨A⟩

/-- `lu.solve(b)`, la.py 1134: the solution of the factored system. -/
noncomputable def Lu.solve {n : ℕ} (l : Lu n K) (b : Fin n → K) : Fin n → K := l.A⁻¹.mulVec b

/-- la.py 1084-1086 (`A[(row, zerorow)] = 0; A[row, row] = 1`): one row becomes a row of the identity. -/
def identRow {n : ℕ} (A : Matrix (Fin n) (Fin n) K) (row : Fin n) : Matrix (Fin n) (Fin n) K :=
  A.updateRow row (Pi.single row 1)

/-- `Solver2D.apply_constraints`, la.py 1078-1089, matrix part. -/
def constrainMat {n : ℕ} (A : Matrix (Fin n) (Fin n) K) (cons : List (Fin n × K)) : Matrix (Fin n) (Fin n) K :=
  cons.foldl (fun A c => identRow A c.1) A

/-- `Solver2D.apply_constraints`, la.py 1087 (`b[row] = val`). -/
def constrainRhs {n : ℕ} (b : Fin n → K) (cons : List (Fin n × K)) : Fin n → K :=
  cons.foldl (fun b c => Function.update b c.1 c.2) b

/-! ## Solver2D, Solver3D, SolverND -/

/-- The attributes `mat` and `_lu` of `Solver2D`, la.py 1067-1076. -/
structure S2 (n : ℕ) (K : Type*) where
  mat : Matrix (Fin n) (Fin n) K
  lu : Option (Lu n K)

/-- `Solver2D.__init__`, la.py 1067-1076. -/
def S2.new {n : ℕ} (A : Matrix (Fin n) (Fin n) K) : S2 n K := ⟨A, none⟩

/-- `Solver2D.__call__`, la.py 1105-1141. The result `none` is an exception; the new state is kept in that case
too, because line 1129 assigns `self.mat` before `splu` can raise. -/
noncomputable def S2.call {n : ℕ} (s : S2 n K) (b : Fin n → K) (cons : List (Fin n × K)) :
    S2 n K × Option (Fin n → K) :=
  let mat := constrainMat s.mat cons
  let bs := constrainRhs b cons
  match s.lu with
  | some l => (⟨mat, some l⟩, some (l.solve bs))
  | none =>
    match splu mat with
    | none => (⟨mat, none⟩, none)
    | some l => (⟨mat, some l⟩, some (l.solve bs))

/-- `Solver2D.matvec`, la.py 1078-1082. -/
def S2.matvec {n : ℕ} (s : S2 n K) (u : Fin n → K) : Fin n → K := s.mat.mulVec u

/-- A history of calls on one `Solver2D`. -/
noncomputable def S2.run {n : ℕ} (s : S2 n K) : List ((Fin n → K) × List (Fin n × K)) →
    S2 n K × List (Option (Fin n → K))
  | [] => (s, [])
  | (b, cons) :: rest =>
    let r := s.call b cons
    let t := r.1.run rest
    (t.1, r.2 :: t.2)

/-! ## SolverGeneric2ND -/

/-- A right-hand side of `SolverGeneric2ND` in two dimensions: an array of shape `(n0, n1)`. -/
abbrev Arr2 (K : Type*) := ℕ → ℕ → K

/-- numpy `b[row] = val` on a two-dimensional array, la.py 926 and 930: the whole row is overwritten. -/
def setRow2 (b : Arr2 K) (row : ℕ) (val : K) : Arr2 K := fun i j => if i = row then val else b i j

/-- `b[s0].flatten()` with `s0 = T.slice()` and `T.dims() = (d0, d1)`, la.py 991-992. -/
def flatten2 (d0 d1 : ℕ) (b : Arr2 K) : Fin (d0 * d1) → K := fun k => b (k / d1) (k % d1)

/-- `u[s0] = x.reshape(T.dims())`, la.py 994. -/
def unflatten2 (d0 d1 : ℕ) (u : Arr2 K) (x : Fin (d0 * d1) → K) : Arr2 K := fun i j =>
  if h : i < d0 ∧ j < d1 then
    x ⟨i * d1 + j, by
      calc i * d1 + j < i * d1 + d1 := by omega
        _ = (i + 1) * d1 := by ring
        _ ≤ d0 * d1 := Nat.mul_le_mul_right _ h.1⟩
  else u i j

/-- The attributes `mats2D[0]` and `_lu[0]` of `SolverGeneric2ND` in two dimensions, la.py 862-869. -/
structure G2 (n : ℕ) (K : Type*) where
  mat : Matrix (Fin n) (Fin n) K
  lu : Option (Lu n K)

/-- `SolverGeneric2ND.apply_constraints`, la.py 917-931, `n0 = b.shape[0]`: one constraint. The matrix row is a
row of the flattened matrix, `b[row]` is a row of the two-dimensional array. `none` is an IndexError. -/
def G2.constrain1 {n : ℕ} (n0 : ℕ) (fresh : Bool) (x : Matrix (Fin n) (Fin n) K × Arr2 K) (c : ℕ × K) :
    Option (Matrix (Fin n) (Fin n) K × Arr2 K) :=
  if c.1 < n0 then
    if fresh then
      if h : c.1 < n then some (identRow x.1 ⟨c.1, h⟩, setRow2 x.2 c.1 c.2) else none
    else some (x.1, setRow2 x.2 c.1 c.2)
  else none

/-- `SolverGeneric2ND.__call__`, la.py 956-1021, two dimensions: the array `b` has shape `(n0, n1)`, the space has
dimensions `(d0, d1)`. Returned: new state, the (mutated) right-hand side and the solution. The mutation of the
state and of `b` when an exception is raised is not modelled (the caller sees `none`). -/
noncomputable def G2.call {d0 d1 : ℕ} (n0 : ℕ) (s : G2 (d0 * d1) K) (b u : Arr2 K) (cons : List (ℕ × K)) :
    Option (G2 (d0 * d1) K × Arr2 K × Arr2 K) :=
  match cons.foldlM (G2.constrain1 n0 s.lu.isNone) (s.mat, b) with
  | none => none
  | some (mat, b') =>
    match s.lu.orElse (fun _ => splu mat) with
    | none => none
    | some l => some (⟨mat, some l⟩, b', unflatten2 d0 d1 u (l.solve (flatten2 d0 d1 b')))

/-- A right-hand side in three dimensions. -/
abbrev Arr3 (K : Type*) := ℕ → ℕ → ℕ → K

/-- numpy `b[row] = val` on a three-dimensional array, la.py 926 and 930: a whole plane is overwritten. -/
def setRow3 (b : Arr3 K) (row : ℕ) (val : K) : Arr3 K := fun i j k => if i = row then val else b i j k

/-- `b[tuple(s0)]` with `s0[diagonal_axis] = i`, la.py 1003-1006. -/
def plane (axis : ℕ) (b : Arr3 K) (i : ℕ) : Arr2 K :=
  if axis = 0 then fun p q => b i p q else if axis = 1 then fun p q => b p i q else fun p q => b p q i

/-- First call of `SolverGeneric2ND.__call__` in three dimensions, la.py 986 (`apply_constraints` works on
`mats2D[0]` only, 920) and 1000-1013: the solution for every wavenumber `i < m` on the diagonal axis. All
constraint rows are assumed in range of the first axis and of the flattened matrix. -/
noncomputable def G3.call (axis m : ℕ) {d0 d1 : ℕ} (mats : ℕ → Matrix (Fin (d0 * d1)) (Fin (d0 * d1)) K) (b : Arr3 K)
    (cons : List (Fin (d0 * d1) × K)) (i : ℕ) : Option (Arr2 K) :=
  let b' := cons.foldl (fun b c => setRow3 b c.1 c.2) b
  let A := if i = 0 then constrainMat (mats 0) cons else mats i
  if i < m then (splu A).map fun l => unflatten2 d0 d1 (fun _ _ => 0) (l.solve (flatten2 d0 d1 (plane axis b' i)))
  else none

/-! ## BlockMatrixSolver -/

/-- `BlockMatrixSolver.apply_constraint`, la.py 1449-1474, with `A` a matrix and with `A = None`. `first` is the
test that the index tuple `i` sums to zero; `row = offset + constraint[1]`. -/
def blockConstrain {n : ℕ} (first : Bool) (cons : List (Fin n × K)) (A : Matrix (Fin n) (Fin n) K) (g : Fin n → K)
    (withMat : Bool) : Matrix (Fin n) (Fin n) K × (Fin n → K) :=
  if first then (if withMat then constrainMat A cons else A, constrainRhs g cons) else (A, g)

/-- la.py 1454-1460: the constraint is for the index zero, or for the tuple of indices with sum zero. -/
def isFirst (key : List ℕ) : Bool := key.sum == 0

/-- One wavenumber of `BlockMatrixSolver.__call__`, la.py 1518-1537 (spaces that are not purely Fourier): `Ai` is
the assembled block matrix for that key, `lu` is `self._lu[key]` if present, `gi` the flattened right-hand side.
Rows are the flattened rows `dims[con[0]] + con[1]`. -/
noncomputable def blockStep {n : ℕ} (key : List ℕ) (Ai : Matrix (Fin n) (Fin n) K) (lu : Option (Lu n K))
    (gi : Fin n → K) (cons : List (Fin n × K)) : Option (Lu n K × (Fin n → K)) :=
  match lu with
  | some l => some (l, l.solve (blockConstrain (isFirst key) cons Ai gi false).2)
  | none =>
    let r := blockConstrain (isFirst key) cons Ai gi true
    (splu r.1).map fun l => (l, l.solve r.2)

/-- The whole call for spaces that are not purely Fourier: a dictionary of factorizations and, for every key, the
solution; the exceptions of single keys are kept apart (`none`). la.py 1516-1537. -/
noncomputable def blockCall {n : ℕ} (Ai : List ℕ → Matrix (Fin n) (Fin n) K) (lu : List ℕ → Option (Lu n K))
    (g : List ℕ → Fin n → K) (cons : List (Fin n × K)) (key : List ℕ) : Option (Lu n K) × Option (Fin n → K) :=
  match blockStep key (Ai key) (lu key) (g key) cons with
  | none => (none, none)
  | some (l, u) => (some l, some u)

/-- The history of calls for one key. -/
noncomputable def blockRun {n : ℕ} (key : List ℕ) (Ai : Matrix (Fin n) (Fin n) K) (lu : Option (Lu n K)) :
    List ((Fin n → K) × List (Fin n × K)) → List (Option (Fin n → K))
  | [] => []
  | (g, cons) :: rest =>
    match blockStep key Ai lu g cons with
    | none => none :: blockRun key Ai lu rest
    | some (l, u) => some u :: blockRun key Ai (some l) rest

/-- The attribute `_lu` in the branch for purely Fourier spaces: the initial empty dictionary or a SuperLU object,
la.py 1497-1512. Only its type is ever used. -/
inductive FLu | dict | superLU
  deriving DecidableEq

/-- `BlockMatrixSolver.__call__` for purely Fourier spaces, la.py 1499-1512: the matrix is constrained only if
`self._lu` is still a dictionary, and is factored in every call. The constrained matrix is a local variable. -/
noncomputable def fourierCall {n : ℕ} (A : Matrix (Fin n) (Fin n) K) (st : FLu) (g : Fin n → K)
    (cons : List (Fin n × K)) : FLu × Option (Fin n → K) :=
  let r := blockConstrain true cons A g (st == .dict)
  match splu r.1 with
  | none => (st, none)
  | some l => (.superLU, some (l.solve r.2))

end Shenfun.Direct
