import Mathlib.Data.List.Basic
import Mathlib.Algebra.BigOperators.Group.List.Basic
import Mathlib.Logic.Function.Basic

/-!
# Composite spaces: views of functions, offsets of basis functions, flattened degrees of freedom

Models `/repo/shenfun/tensorproductspace.py` (`CompositeSpace`, `VectorSpace`, `TensorSpace`),
`/repo/shenfun/spectralbase.py` (`MixedFunctionSpace`, `CompositeBase.slice`, `BoundaryBase.slice`) and the indexing in
`/repo/shenfun/forms/arguments.py`.
-/

namespace Shenfun

/-- The three classes of composite spaces, `/repo/shenfun/tensorproductspace.py:1377, 1651, 1718`.  `MixedFunctionSpace`
(`/repo/shenfun/spectralbase.py:2028`) is like `CompositeSpace`. -/
inductive CKind where
  | composite
  | vector
  | tensor
  deriving DecidableEq

/-- A space: a scalar space with its number of geometrical dimensions and a label, or a composite space with its list
`spaces`. -/
inductive Spc where
  | scalar (dimensions label : ℕ)
  | comp (kind : CKind) (spaces : List Spc)

namespace Spc

/-- `CompositeSpace.flatten`, `/repo/shenfun/tensorproductspace.py:1599-1608`, as the list of (dimensions, label). -/
def flatten : Spc → List (ℕ × ℕ)
  | scalar d a => [(d, a)]
  | comp _ l => (l.map flatten).flatten

/-- `dimensions`, `/repo/shenfun/tensorproductspace.py:1452-1454` (first scalar space; zero stands for the `IndexError` of an
empty space). -/
def dimensions (s : Spc) : ℕ := (s.flatten.head?.map Prod.fst).getD 0

/-- `num_components`, `/repo/shenfun/tensorproductspace.py:1124, 1595-1597, 1677-1680, 1744-1745`. -/
def numComponents : Spc → ℕ
  | scalar _ _ => 1
  | comp .composite l => (flatten (comp .composite l)).length
  | comp .vector l => dimensions (comp .vector l)
  | comp .tensor l => dimensions (comp .tensor l) ^ 2

end Spc

/-- Python list indexing with a possibly negative index, `none` stands for `IndexError`. -/
def pyGet? {α : Type*} (l : List α) (i : ℤ) : Option α :=
  if i < 0 then (if (l.length : ℤ) + i < 0 then none else l[((l.length : ℤ) + i).toNat]?) else l[i.toNat]?

/-- The loop `for j in range(i): offset += self._space[j].num_components()`, empty for negative `i`,
`/repo/shenfun/forms/arguments.py:1130-1131, 1396-1397`. -/
def offsetBefore (l : List Spc) (i : ℤ) : ℕ := ((l.take i.toNat).map Spc.numComponents).sum

/-- A `Function` or `Array` on a composite space: a view of the components `start, ..., start+len-1` of the base array, with
`_space` and `_offset`.  `len = none` is an array without the leading axis over components (one component). -/
structure CView where
  space : Spc
  start : ℕ
  len : Option ℕ
  offset : ℕ

/-- A new `Function(space)` or `Array(space)`, `/repo/shenfun/forms/arguments.py:1306-1318` (more than one geometrical
dimension: there always is a leading axis). -/
def CView.whole (s : Spc) : CView := ⟨s, 0, some s.numComponents, 0⟩

/-- `ShenfunBaseArray.__getitem__` with an integer, `/repo/shenfun/forms/arguments.py:1388-1406`.  `none` stands for an exception
or for a result that is not a component (a scalar function, or an array without leading axis, is indexed along its first
coordinate). -/
def CView.getitem (v : CView) (i : ℤ) : Option CView :=
  match v.space, v.len with
  | .comp _ l, some L =>
    match pyGet? l i with
    | none => none
    | some space =>
      let offset := offsetBefore l i
      let ns := space.numComponents
      if ns > 1 then
        some ⟨space, v.start + min offset L, some (min (offset + ns) L - min offset L), offset + v.offset⟩
      else if offset < L then some ⟨space, v.start + offset, none, offset + v.offset⟩
      else none
  | _, _ => none

/-- A `TestFunction` or `TrialFunction`: `_space` and `_offset`. -/
structure CBasis where
  space : Spc
  offset : ℕ

/-- `BasisFunction.__getitem__`, `/repo/shenfun/forms/arguments.py:1125-1133`. -/
def CBasis.getitem (v : CBasis) (i : ℤ) : Option CBasis :=
  match v.space with
  | .comp _ l => (pyGet? l i).map fun space => ⟨space, v.offset + offsetBefore l i⟩
  | .scalar _ _ => none

/-- Repeated indexing `u[i0][i1]...`. -/
def CView.path (v : CView) : List ℤ → Option CView
  | [] => some v
  | i :: p => (v.getitem i).bind fun w => w.path p

/-- Repeated indexing of a basis function. -/
def CBasis.path (v : CBasis) : List ℤ → Option CBasis
  | [] => some v
  | i :: p => (v.getitem i).bind fun w => w.path p

/-! ## Flattened degrees of freedom -/

/-- An index into one axis: an integer, or a slice `start:stop`. -/
inductive Sel where
  | fix (j : ℕ)
  | sl (start stop : ℕ)

/-- `_get_ndiag_slices` for one component, without the component index: diagonal axes get the integers `j`,
`/repo/shenfun/tensorproductspace.py:1356-1368, 1511-1521`. -/
def ndiagSlices : List Bool → List (ℕ × ℕ) → List ℕ → List Sel
  | true :: ds, _ :: s, j :: js => .fix j :: ndiagSlices ds s js
  | false :: ds, (a, b) :: s, js => .sl a b :: ndiagSlices ds s js
  | _, _, _ => []

/-- Product of the dimensions along the axes that are not diagonal: one row of `dc` in `_get_ndiag_cum_dofs`,
`/repo/shenfun/tensorproductspace.py:1502-1509` (`dim() = stop - start`, `/repo/shenfun/spectralbase.py:847-850`). -/
def ndiagDofs (diag : List Bool) (s : List (ℕ × ℕ)) : ℕ :=
  (List.zipWith (fun d ab => if d then 1 else ab.2 - ab.1) diag s).prod

/-- `np.prod([1 if isinstance(i, int) else i.stop-i.start for i in s])` of `_get_ndiag_slices_and_dims`,
`/repo/shenfun/tensorproductspace.py:1523-1529`. -/
def Sel.count (s : List Sel) : ℕ := (s.map fun | .fix _ => 1 | .sl a b => b - a).prod

/-- `[0] + cumsum`, `/repo/shenfun/tensorproductspace.py:1508, 1525-1528`. -/
def cumDofs (n : ℕ → ℕ) : ℕ → ℕ
  | 0 => 0
  | i + 1 => cumDofs n i + n i

/-- The multi-index of element `k` of `u[tuple(s)].ravel()` (row-major order) in the array `u`. -/
def Sel.index : List Sel → ℕ → List ℕ
  | [], _ => []
  | .fix j :: s, k => j :: Sel.index s k
  | .sl a _ :: s, k => (a + k / Sel.count s) :: Sel.index s (k % Sel.count s)

/-- `Function.copy_to_flattened`, `/repo/shenfun/forms/arguments.py:1829-1858`: `nc` components, selections `sel i`, block offsets
`dims i`; the array `f` is written. -/
def copyToFlattened {K : Type*} (nc : ℕ) (sel : ℕ → List Sel) (dims : ℕ → ℕ) (u : ℕ → List ℕ → K) (f : ℕ → K) : ℕ → K :=
  (List.range nc).foldl (fun f i p => if dims i ≤ p ∧ p < dims (i+1) then u i (Sel.index (sel i) (p - dims i)) else f p) f

/-- `Function.copy_from_flattened`, `/repo/shenfun/forms/arguments.py:1860-1888`: the elements of the selected region are assigned one
after the other in row-major order. -/
def copyFromFlattened {K : Type*} (nc : ℕ) (sel : ℕ → List Sel) (dims : ℕ → ℕ) (f : ℕ → K) (u : ℕ → List ℕ → K) :
    ℕ → List ℕ → K :=
  (List.range nc).foldl (fun u i => (List.range (dims (i+1) - dims i)).foldl
    (fun u k => Function.update u i (Function.update (u i) (Sel.index (sel i) k) (f (dims i + k)))) u) u

/-! ## Degrees of freedom and boundary degrees of freedom of one basis -/

/-- `CompositeBase.slice`, `/repo/shenfun/spectralbase.py:1439-1440`, as (start, stop). -/
def compositeSlice (N numBcs : ℕ) : ℤ × ℤ := (0, (N : ℤ) - numBcs)

/-- `BoundaryBase.slice` with `shape()` the number of rows of its stencil matrix, `/repo/shenfun/spectralbase.py:1743-1754`. -/
def boundarySlice (N rows : ℕ) : ℤ × ℤ := ((N : ℤ) - rows, N)

/-- `SpectralBase.dim`, `/repo/shenfun/spectralbase.py:847-850`. -/
def sliceDim (s : ℤ × ℤ) : ℤ := s.2 - s.1

/-- `BoundaryValues.set_boundary_dofs`, `/repo/shenfun/tensorproductspace.py:2108-2128`, for an array of length `n` along the axis:
`u[-M+i] = bcs[i]` for `i` in `range(M)`. -/
def putBoundaryDofs {K : Type*} (n M : ℕ) (bcs : ℕ → K) (u : ℤ → K) : ℤ → K :=
  (List.range M).foldl (fun u (i : ℕ) => Function.update u ((n : ℤ) + (-(M : ℤ) + i)) (bcs i)) u

/-- The slice of boundary degrees of freedom used by `BoundaryValues._add_to_orthogonal`,
`/repo/shenfun/tensorproductspace.py:2080-2086`: shifted when the array is padded to length `n`. -/
def orthogonalSlice (N rows n : ℕ) : ℤ × ℤ :=
  let sl := boundarySlice N rows
  let ds := (n : ℤ) - N
  if ds > 0 then (sl.1 + ds, sl.2 + ds) else sl

/-! ## Time-dependent boundary values -/

/-- A boundary value: a number, or a sympy expression with its value for every time. -/
inductive BVal (K : Type*) where
  | num (a : K)
  | expr (dependsOnT : Bool) (f : K → K)

/-- `isinstance(bci, sp.Expr) and tt in bci.free_symbols`, `/repo/shenfun/tensorproductspace.py:1898-1899`. -/
def BVal.dep {K : Type*} : BVal K → Bool
  | .expr true _ => true
  | _ => false

/-- `bci.subs(tt, time)` where the value depends on `t`, `/repo/shenfun/tensorproductspace.py:1898-1901`. -/
def BVal.subs {K : Type*} (t : K) : BVal K → BVal K
  | .expr true f => .num (f t)
  | b => b

/-- The object `BoundaryValues`: the data `bc.orderedvals()`, `bcs`, `bcs_final`, `bc_time`. -/
structure BVState (K : Type*) where
  bc : List (BVal K)
  bcs : List (BVal K)
  bcsFinal : List (BVal K)
  time : K

/-- `BoundaryValues.update(time, update_tensor)` for a one-dimensional space without `Project` values,
`/repo/shenfun/tensorproductspace.py:1879-1907`. (`self.has_nonhomogeneous_bcs` is a method object and always true.) -/
def BVState.update {K : Type*} (s : BVState K) (time : Option K) (updateTensor : Bool) : BVState K :=
  match time with
  | none => if updateTensor then { s with bcs := s.bc, bcsFinal := s.bc } else s
  | some t =>
    let dep := s.bc.any BVal.dep
    let bcs := s.bc.map (BVal.subs t)
    if updateTensor || dep then
      { s with bcs := bcs, bcsFinal := bcs, time := if dep then t else s.time }
    else s

end Shenfun
