import Verif.Model.TP

/-!
# Working along one axis of a multidimensional array

`/repo/shenfun/optimization/numba/la.py` (loops over the lines of an array),
`SolverGeneric1ND` (`/repo/shenfun/la.py:1183-1420`), `SparseMatrix.matvec` with an axis,
`TPMatrix.matvec` and `TPMatrix.diags`.
A view such as `x[:, j, k]` passed to an in-place function `f` is modelled by replacing that line by
`f line`.  Views have the length of the axis; the functions passed only write inside that length.
-/

namespace Shenfun

variable {K : Type*}

/-- `Solve_axis_2D`, `/repo/shenfun/optimization/numba/la.py:45-52`; the array has shape `(n0, n1)` and
`f` is `innerfun(·, data)`. -/
def solveAxis2D (n0 n1 : ℕ) (f : (ℕ → K) → (ℕ → K)) (axis : ℕ) (x : ℕ → ℕ → K) : ℕ → ℕ → K :=
  if axis = 0 then
    forN (fun j x => fun i j' => if j' = j then f (fun i => x i j) i else x i j') x n1
  else
    forN (fun i x => Function.update x i (f (x i))) x n0

/-- `Solve_axis_3D`, `/repo/shenfun/optimization/numba/la.py:54-67`. -/
def solveAxis3D (n0 n1 n2 : ℕ) (f : (ℕ → K) → (ℕ → K)) (axis : ℕ) (x : ℕ → ℕ → ℕ → K) : ℕ → ℕ → ℕ → K :=
  if axis = 0 then
    forN (fun j x => forN (fun k x => fun i j' k' =>
      if j' = j ∧ k' = k then f (fun i => x i j k) i else x i j' k') x n2) x n1
  else if axis = 1 then
    forN (fun i x => forN (fun k x => fun i' j k' =>
      if i' = i ∧ k' = k then f (fun j => x i j k) j else x i' j k') x n2) x n0
  else
    forN (fun i x => forN (fun j x => fun i' j' k =>
      if i' = i ∧ j' = j then f (fun k => x i j k) k else x i' j' k) x n1) x n0

/-- `Solve_axis_4D`, `/repo/shenfun/optimization/numba/la.py:69-91`. -/
def solveAxis4D (n0 n1 n2 n3 : ℕ) (f : (ℕ → K) → (ℕ → K)) (axis : ℕ) (x : ℕ → ℕ → ℕ → ℕ → K) :
    ℕ → ℕ → ℕ → ℕ → K :=
  if axis = 0 then
    forN (fun j x => forN (fun k x => forN (fun l x => fun i j' k' l' =>
      if j' = j ∧ k' = k ∧ l' = l then f (fun i => x i j k l) i else x i j' k' l') x n3) x n2) x n1
  else if axis = 1 then
    forN (fun i x => forN (fun k x => forN (fun l x => fun i' j k' l' =>
      if i' = i ∧ k' = k ∧ l' = l then f (fun j => x i j k l) j else x i' j k' l') x n3) x n2) x n0
  else if axis = 2 then
    forN (fun i x => forN (fun j x => forN (fun l x => fun i' j' k l' =>
      if i' = i ∧ j' = j ∧ l' = l then f (fun k => x i j k l) k else x i' j' k l') x n3) x n1) x n0
  else
    forN (fun i x => forN (fun j x => forN (fun k x => fun i' j' k' l =>
      if i' = i ∧ j' = j ∧ k' = k then f (fun l => x i j k l) l else x i' j' k' l) x n2) x n1) x n0

/-- `SolverGeneric1ND_solve_data` for 2D arrays, `/repo/shenfun/optimization/numba/la.py:9-21` and
`/repo/shenfun/la.py:1323-1333`: `f i` is `sol(·, data[i])`, `z` is `is_zero_index`. -/
def solveData2D (n0 n1 : ℕ) (z : Bool) (f : ℕ → (ℕ → K) → (ℕ → K)) (naxes : ℕ) (x : ℕ → ℕ → K) : ℕ → ℕ → K :=
  if naxes = 0 then
    forN (fun j x => if j = 0 ∧ z = true then x
      else fun i j' => if j' = j then f j (fun i => x i j) i else x i j') x n1
  else
    forN (fun i x => if i = 0 ∧ z = true then x else Function.update x i (f i (x i))) x n0

/-- `SolverGeneric1ND_solve_data` for 3D arrays, `/repo/shenfun/optimization/numba/la.py:23-42` and
`/repo/shenfun/la.py:1335-1343`. -/
def solveData3D (n0 n1 n2 : ℕ) (z : Bool) (f : ℕ → ℕ → (ℕ → K) → (ℕ → K)) (naxes : ℕ)
    (x : ℕ → ℕ → ℕ → K) : ℕ → ℕ → ℕ → K :=
  if naxes = 0 then
    forN (fun j x => forN (fun k x => if j = 0 ∧ k = 0 ∧ z = true then x else fun i j' k' =>
      if j' = j ∧ k' = k then f j k (fun i => x i j k) i else x i j' k') x n2) x n1
  else if naxes = 1 then
    forN (fun i x => forN (fun k x => if i = 0 ∧ k = 0 ∧ z = true then x else fun i' j k' =>
      if i' = i ∧ k' = k then f i k (fun j => x i j k) j else x i' j k') x n2) x n0
  else
    forN (fun i x => forN (fun j x => if i = 0 ∧ j = 0 ∧ z = true then x else fun i' j' k =>
      if i' = i ∧ j' = j then f i j (fun k => x i j k) k else x i' j' k) x n1) x n0

/-- `SolverGeneric1ND.fast_solve` for 2D arrays, `/repo/shenfun/la.py:1346-1364`: copy `b` to `u`, solve the
line with index 0 first with its own solver `f 0` (on rank zero), then all the others. -/
def fastSolve2D (n0 n1 : ℕ) (rank0 : Bool) (f : ℕ → (ℕ → K) → (ℕ → K)) (naxes : ℕ) (b : ℕ → ℕ → K) :
    ℕ → ℕ → K :=
  let u := if rank0 then
      (if naxes = 0 then (fun i j => if j = 0 then f 0 (fun i => b i 0) i else b i j)
       else Function.update b 0 (f 0 (b 0)))
    else b
  solveData2D n0 n1 rank0 f naxes u

section field

variable [Field K] {D : ℕ}

/-- `SparseMatrix.matvec(v, c, axis=axis)`: the axis is moved first, the product taken line by line and
moved back, `/repo/shenfun/matrixbase.py:111-143` (`format='python'`). -/
def SM.matvecAxis (A : SM K) (axis : Fin D) (v : (Fin D → ℕ) → K) : (Fin D → ℕ) → K :=
  fun I => A.matvec (fun j => v (Function.update I axis j)) (I axis)

/-- `naxes`: the non-diagonal axes, in increasing order
(`/repo/shenfun/tensorproductspace.py:1140-1156`). -/
def TPM.naxes (t : TPM D K) : List (Fin D) := (List.finRange D).filter fun a => !t.diag a

open Classical in
/-- `TPMatrix.matvec`, `/repo/shenfun/matrixbase.py:1436-1481` for scalar spaces on one process (the
transfers between pencils, lines 1461-1476, are the identity there).  `pencil` picks which of the two
non-diagonal axes is aligned first (line 1461).  With more than two non-diagonal axes the zero-filled `c` is
returned. -/
noncomputable def TPM.matvec (t : TPM D K) (pencil : Bool) (v : (Fin D → ℕ) → K) : (Fin D → ℕ) → K :=
  let t' := if t.returnsSelf then t else t.simplify
  match t'.naxes with
  | [] => fun I => t'.scale I * v I
  | [a] => fun I => (t'.mats a).sm.matvecAxis a v I * t'.scale I
  | [a, b] =>
    if pencil then fun I => (t'.mats b).sm.matvecAxis b ((t'.mats a).sm.matvecAxis a v) I * t'.scale I
    else fun I => (t'.mats a).sm.matvecAxis a ((t'.mats b).sm.matvecAxis b v) I * t'.scale I
  | _ => fun _ => 0

/-- A matrix with its shape, as returned by `SparseMatrix.diags()`. -/
structure Dense (K : Type*) where
  rows : ℕ
  cols : ℕ
  e : ℕ → ℕ → K

/-- `SparseMatrix.diags()`, `/repo/shenfun/matrixbase.py:169-177`, as a dense matrix. -/
def SM.dense (A : SM K) : Dense K := ⟨A.rows, A.cols, fun i j => A.scale * Spec.diagsEntry A.diags i j⟩

/-- `scipy.sparse.kron`, used in `/repo/shenfun/matrixbase.py:1618-1644`. -/
def Dense.kron (A B : Dense K) : Dense K :=
  ⟨A.rows * B.rows, A.cols * B.cols, fun r c => A.e (r / B.rows) (c / B.cols) * B.e (r % B.rows) (c % B.cols)⟩

/-- The nested products `kron(m0, kron(m1, ...))`, `/repo/shenfun/matrixbase.py:1616-1644`
(the code writes out 2 to 5 dimensions). -/
def kronList : List (Dense K) → Dense K
  | [] => ⟨1, 1, fun _ _ => 1⟩
  | [A] => A
  | A :: B :: L => A.kron (kronList (B :: L))

/-- `TPMatrix.diags` for a matrix with a number as scale, `/repo/shenfun/matrixbase.py:1614-1646`. -/
def TPM.diags (t : TPM D K) (c : K) : Dense K :=
  let k := kronList ((List.finRange D).map fun a => (t.mats a).sm.dense)
  ⟨k.rows, k.cols, fun r s => k.e r s * c⟩

end field

end Shenfun
