import Verif.Model.Sparse
import Verif.Spec.Diags
import Mathlib.Data.Fintype.Basic
import Mathlib.Data.List.FinRange

/-!
# `TPMatrix` and lists of tensor product matrices, `/repo/shenfun/matrixbase.py:1275-1677, 1769-1793`

`D` is the number of axes.  Arrays are functions of the multi-index `Fin D → ℕ`.  The scale of a
`TPMatrix` is an array broadcast over all axes.  The model is the view of one process: the restriction of
the scale to the local slice (lines 1348-1356) is not modelled.
Objects live in a heap, because `+=` mutates.
-/

namespace Shenfun

/-- A one-dimensional matrix inside a `TPMatrix`: its `SparseMatrix` data, `get_key()`
(`/repo/shenfun/matrixbase.py:385-386, 778-781`, an opaque number here), whether `mat[0]` is a Python
scalar (`np.ndim(d) == 0`), and `is_bc_matrix()` (`/repo/shenfun/matrixbase.py:800-801`). -/
structure Mat1 (K : Type*) where
  sm : SM K
  key : ℕ
  scalar : Bool
  bc : Bool

/-- `TPMatrix`, `/repo/shenfun/matrixbase.py:1313-1325`.  `diag a` says that axis `a` is not in
`testspace.get_nondiagonal_axes()`. -/
structure TPM (D : ℕ) (K : Type*) where
  gidx : Option (ℕ × ℕ)
  mats : Fin D → Mat1 K
  scale : (Fin D → ℕ) → K
  diag : Fin D → Bool
  simplified : Bool

namespace TPM

variable {K : Type*} [Field K] {D : ℕ}

/-- `Identity(shape)`, `/repo/shenfun/matrixbase.py:814-816` (`is_bc_matrix` is `False`; key `0` stands for
`hash(frozenset({0}))`). -/
def ident (rows cols : ℕ) : Mat1 K :=
  { sm := { rows := rows, cols := cols, scale := 1, diags := [(0, fun _ => 1)] },
    key := 0, scalar := true, bc := false }

/-- `d = mat[0]`, multiplied by `mat.scale` only if it is an array:
`/repo/shenfun/matrixbase.py:1338-1340`, broadcast along `axis`. -/
def diagFactor (m : Mat1 K) (i : ℕ) : K :=
  if m.scalar then SM.getItem m.sm.diags 0 i else SM.getItem m.sm.diags 0 i * m.sm.scale

/-- The loop over the axes in `get_simplified`, `/repo/shenfun/matrixbase.py:1334-1342`: scale part. -/
def simpScale (t : TPM D K) : (Fin D → ℕ) → K :=
  (List.finRange D).foldl
    (fun s a => if t.diag a then (fun I => s I * diagFactor (t.mats a) (I a)) else s) t.scale

/-- The loop over the axes in `get_simplified`, matrix part, `/repo/shenfun/matrixbase.py:1342-1343`. -/
def simpMats (t : TPM D K) (a : Fin D) : Mat1 K :=
  if t.diag a then ident (t.mats a).sm.rows (t.mats a).sm.cols else t.mats a

/-- The early return of `get_simplified`, `/repo/shenfun/matrixbase.py:1328-1330`: the object itself is
returned. -/
def returnsSelf (t : TPM D K) : Prop := (∀ a, t.diag a = false) ∨ t.simplified = true

/-- The new object built by `get_simplified`, `/repo/shenfun/matrixbase.py:1332-1365`. -/
def simplify (t : TPM D K) : TPM D K :=
  { t with mats := t.simpMats, scale := t.simpScale, simplified := true }

/-- Equality of the one-dimensional matrices, `/repo/shenfun/matrixbase.py:1557-1561` with
`SparseMatrix.__eq__`, `/repo/shenfun/matrixbase.py:200-211, 783-798`: key, shape and entries *without* the
scale.  Simplifications: entries are compared exactly (the code: norm of the difference of the csr data
below 1e-8). -/
def matEq (m n : Mat1 K) : Prop :=
  m.key = n.key ∧ m.sm.rows = n.sm.rows ∧ m.sm.cols = n.sm.cols ∧
    ∀ i < m.sm.rows, ∀ j < m.sm.cols, Spec.diagsEntry m.sm.diags i j = Spec.diagsEntry n.sm.diags i j

/-- `TPMatrix.__eq__`, `/repo/shenfun/matrixbase.py:1549-1562`. -/
def eq (s t : TPM D K) : Prop := s.gidx = t.gidx ∧ ∀ a, matEq (s.mats a) (t.mats a)

/-- `TPMatrix.__iadd__`, `/repo/shenfun/matrixbase.py:1576-1581` (the assertion `self == a` is checked by
the callers). -/
def iadd (s t : TPM D K) : TPM D K := { s with scale := fun I => s.scale I + t.scale I }

/-- `TPMatrix.is_bc_matrix`, `/repo/shenfun/matrixbase.py:1494-1498`. -/
def isBc (t : TPM D K) : Bool := (List.finRange D).any fun a => (t.mats a).bc

end TPM

/-- Python objects: a store of `TPMatrix` objects and the next free reference. -/
structure Heap (D : ℕ) (K : Type*) where
  obj : ℕ → TPM D K
  next : ℕ

namespace Heap

variable {K : Type*} [Field K] {D : ℕ}

open Classical in
/-- `TPMatrix.get_simplified` on a reference: either the same reference or a new object,
`/repo/shenfun/matrixbase.py:1327-1366`. -/
noncomputable def getSimplified (h : Heap D K) (r : ℕ) : Heap D K × ℕ :=
  if (h.obj r).returnsSelf then (h, r)
  else ({ obj := Function.update h.obj h.next (h.obj r).simplify, next := h.next + 1 }, h.next)

/-- First loop of `get_simplified_tpmatrices`, `/repo/shenfun/matrixbase.py:1662-1664`. -/
noncomputable def simplifyAll (h : Heap D K) (R : List ℕ) : Heap D K × List ℕ :=
  R.foldl (fun s r => let g := s.1.getSimplified r; (g.1, s.2 ++ [g.2])) (h, [])

open Classical in
/-- Inner loop `for b in B: if a == b: b += a; found = True`, `/repo/shenfun/matrixbase.py:1670-1673`. -/
noncomputable def mergeInto (a : ℕ) (s : Heap D K × Bool) (B : List ℕ) : Heap D K × Bool :=
  B.foldl (fun s b =>
    if (s.1.obj a).eq (s.1.obj b) then
      ({ s.1 with obj := Function.update s.1.obj b ((s.1.obj b).iadd (s.1.obj a)) }, true)
    else s) s

/-- Body of the loop `for a in A[1:]`, `/repo/shenfun/matrixbase.py:1668-1675`. -/
noncomputable def mergeStep (s : Heap D K × List ℕ) (a : ℕ) : Heap D K × List ℕ :=
  let m := mergeInto a (s.1, false) s.2
  (m.1, if m.2 then s.2 else s.2 ++ [a])

/-- `get_simplified_tpmatrices`, `/repo/shenfun/matrixbase.py:1648-1676` (the empty list, an `IndexError`
in the code, returns `[]`). -/
noncomputable def getSimplifiedTpmatrices (h : Heap D K) (R : List ℕ) : Heap D K × List ℕ :=
  match h.simplifyAll R with
  | (h', []) => (h', [])
  | (h', a :: A) => A.foldl mergeStep (h', [a])

open Classical in
/-- Python's `list.remove(x)`: remove the first element that is the same object or `==`
(used by `extract_bc_matrices`, `/repo/shenfun/matrixbase.py:1792`). -/
noncomputable def pyRemove (h : Heap D K) (l : List ℕ) (r : ℕ) : List ℕ :=
  match l with
  | [] => []
  | x :: xs => if x = r ∨ (h.obj x).eq (h.obj r) then xs else x :: pyRemove h xs r

/-- Inner loop of `extract_bc_matrices` over a copy of one list, `/repo/shenfun/matrixbase.py:1789-1792`:
returns the collected boundary matrices and what is left of the list. -/
noncomputable def extractOne (h : Heap D K) (acc : List ℕ) (a : List ℕ) : List ℕ × List ℕ :=
  a.foldl (fun s b => if (h.obj b).isBc then (s.1 ++ [b], h.pyRemove s.2 b) else s) (acc, a)

/-- `extract_bc_matrices`, `/repo/shenfun/matrixbase.py:1769-1793`: returns the boundary matrices and the
modified lists. -/
noncomputable def extractBcMatrices (h : Heap D K) (mats : List (List ℕ)) : List ℕ × List (List ℕ) :=
  mats.foldl (fun s a => let e := h.extractOne s.1 a; (e.1, s.2 ++ [e.2])) ([], [])

end Heap

end Shenfun
