import Verif.Model.SolverObj
import Mathlib.Data.List.Sort
import Mathlib.Analysis.Normed.Field.Basic

/-!
# `SparseMatrix`, `/repo/shenfun/matrixbase.py:26-531`

The dictionary of diagonals is an association list in dictionary order.  Scalars and arrays are both
functions `ℕ → K` (numpy broadcasting of a scalar diagonal is the constant function).  Callable diagonal
values (`__getitem__`, lines 182-186) and `_keyscale` subclasses (lines 400-401) are not modelled.
-/

namespace Shenfun

/-- `SparseMatrix`: `shape`, `scale` and `_storage`; `/repo/shenfun/matrixbase.py:77-85`. -/
structure SM (K : Type*) where
  rows : ℕ
  cols : ℕ
  scale : K
  diags : List (ℤ × (ℕ → K))

namespace SM

variable {K : Type*} [Field K]

/-- Sorting by offset: `sorted(d.items())`, `/repo/shenfun/matrixbase.py:79-80` and `sort`,
`/repo/shenfun/matrixbase.py:179-180`. -/
def sortD (d : List (ℤ × (ℕ → K))) : List (ℤ × (ℕ → K)) := d.insertionSort (fun a b => a.1 ≤ b.1)

/-- `SparseMatrix.__init__`, `/repo/shenfun/matrixbase.py:77-85`. -/
def new (d : List (ℤ × (ℕ → K))) (rows cols : ℕ) (scale : K) : SM K :=
  { rows := rows, cols := cols, scale := scale, diags := sortD d }

/-- `c[lo:hi] += f` on arrays: `f` is indexed from the start of the slice
(numpy slice assignment in `/repo/shenfun/matrixbase.py:129-132`). -/
def sliceAdd (lo hi : ℕ) (f : ℕ → K) (c : ℕ → K) : ℕ → K :=
  fun i => if lo ≤ i ∧ i < hi then c i + f (i - lo) else c i

/-- Loop body of `matvec(format='python')`, `/repo/shenfun/matrixbase.py:125-132`.
The slice bounds are integers; `toNat` is exact for `-N ≤ key ≤ M` (Python would reinterpret negative
bounds). -/
def matvecStep (N M : ℕ) (v : ℕ → K) (c : ℕ → K) (d : ℤ × (ℕ → K)) : ℕ → K :=
  if d.1 < 0 then
    sliceAdd (-d.1).toNat (min (N : ℤ) (M - d.1)).toNat (fun t => d.2 t * v t) c
  else
    sliceAdd 0 (min (N : ℤ) (M - d.1)).toNat (fun t => d.2 t * v (d.1.toNat + t)) c

/-- `matvec` with `format='python'` for one-dimensional arrays, `/repo/shenfun/matrixbase.py:115-133`. -/
def matvec (A : SM K) (v : ℕ → K) : ℕ → K :=
  let c := A.diags.foldl (matvecStep A.rows A.cols v) (fun _ => 0)
  fun i => c i * A.scale

/-- `diags('dia')`, `/repo/shenfun/matrixbase.py:169-177`: sort, then `scipy.sparse.diags` (which stores
the diagonal with offset `k` in `data[r, max(k,0):]`), times `scale`.  Returns offsets and data. -/
def toDia (A : SM K) : List ℤ × Dia K :=
  ((sortD A.diags).map Prod.fst,
   fun r j => A.scale * ((sortD A.diags).getD r (0, fun _ => 0)).2 (j - (((sortD A.diags).getD r (0, fun _ => 0)).1).toNat))

/-- `__setitem__`, `/repo/shenfun/matrixbase.py:191-192`: replace an existing key in place, else append. -/
def setItem (d : List (ℤ × (ℕ → K))) (k : ℤ) (v : ℕ → K) : List (ℤ × (ℕ → K)) :=
  if k ∈ d.map Prod.fst then d.map (fun e => if e.1 = k then (k, v) else e) else d ++ [(k, v)]

/-- `self[key]` for an existing key, `/repo/shenfun/matrixbase.py:182-186`. -/
def getItem (d : List (ℤ × (ℕ → K))) (k : ℤ) : ℕ → K :=
  ((d.find? (fun e => e.1 = k)).map Prod.snd).getD (fun _ => 0)

/-- Generic `apply_constraints` on one `(row, val)` pair, matrix part, `_lu is None`:
`/repo/shenfun/la.py:113-124`. -/
def constrainRow (A : SM K) (row : ℕ) : SM K :=
  { A with diags := A.diags.map fun d =>
      let key := d.1
      if 0 ≤ key then
        let M : ℤ := A.rows - key
        (key, if (row : ℤ) < M then Function.update d.2 row ((if key = 0 then 1 else 0) / A.scale) else d.2)
      else
        let M : ℤ := A.rows + key
        (key, if (row : ℤ) + key < M ∧ (row : ℤ) + key > 0 then Function.update d.2 ((row : ℤ) + key).toNat 0 else d.2) }

/-- Generic `apply_constraints` for the whole tuple of constraints, matrix and right hand side,
`/repo/shenfun/la.py:111-128` (one-dimensional `b`). -/
def applyConstraints (A : SM K) (b : ℕ → K) (cs : List (ℕ × K)) : SM K × (ℕ → K) :=
  cs.foldl (fun s c => (s.1.constrainRow c.1, Function.update s.2 c.1 c.2)) (A, b)

/-- `issymmetric`, `/repo/shenfun/matrixbase.py:492-503`, with exact comparison in place of the `1e-16`
tolerance; a missing `-key` (KeyError in Python) counts as not symmetric here. -/
def issymmetric [DecidableEq K] (A : SM K) : Bool :=
  if (A.diags.map Prod.fst).sum ≠ 0 then false
  else A.diags.all fun d => decide (d.1 ≤ 0) ||
    ((-d.1 ∈ A.diags.map Prod.fst : Bool) &&
      (List.range (A.rows - d.1.toNat)).all fun t => decide (d.2 t = getItem A.diags (-d.1) t))

/-- `get_solver`, `/repo/shenfun/matrixbase.py:439-474`; `none` stands for the generic `Solve`. -/
def getSolver [DecidableEq K] (A : SM K) : Option Kind :=
  let keys := (sortD A.diags).map Prod.fst
  if A.scale = 0 then none
  else if A.diags.length = 1 then
    if (A.diags.map Prod.fst).head? = some 0 then some .diag else none
  else if A.diags.length = 2 then
    if keys = [0, 2] then some .two else none
  else if A.diags.length = 3 then
    if keys = [-2, 0, 2] then some .tdma
    else if keys = [-1, 0, 1] ∧ A.issymmetric = true then some .tdmaO
    else if keys = [0, 2, 4] then some .three else none
  else if A.diags.length = 4 then
    if keys = [-2, 0, 2, 4] then some .fdma else none
  else if A.diags.length = 5 then
    if keys = [-4, -2, 0, 2, 4] then some .pdma else none
  else if A.diags.length = 7 then
    if keys = [-4, -2, 0, 2, 4, 6, 8] then some .hepta else none
  else none

end SM

/-! ## Arithmetic, with the tolerances of the code -/

namespace SM

variable {K : Type*} [NormedField K]

open Classical in
/-- `incorporate_scale`, `/repo/shenfun/matrixbase.py:396-405`. -/
noncomputable def incorporateScale (A : SM K) : SM K :=
  if ‖A.scale - 1‖ < 1e-8 then A
  else { A with scale := 1, diags := A.diags.map fun d => (d.1, fun t => d.2 t * A.scale) }

/-- The merge loop of `__add__`/`__iadd__`, `/repo/shenfun/matrixbase.py:282-286, 306-310`. -/
def mergeAdd (f d : List (ℤ × (ℕ → K))) : List (ℤ × (ℕ → K)) :=
  d.foldl (fun f e => if e.1 ∈ f.map Prod.fst then setItem f e.1 (fun t => getItem f e.1 t + e.2 t)
    else setItem f e.1 e.2) f

/-- The merge loop of `__sub__`/`__isub__`, `/repo/shenfun/matrixbase.py:330-334, 355-359`. -/
def mergeSub (f d : List (ℤ × (ℕ → K))) : List (ℤ × (ℕ → K)) :=
  d.foldl (fun f e => if e.1 ∈ f.map Prod.fst then setItem f e.1 (fun t => getItem f e.1 t - e.2 t)
    else setItem f e.1 (fun t => - e.2 t)) f

open Classical in
/-- `__add__`, `/repo/shenfun/matrixbase.py:265-287`.  Returns the sum and the (mutated) right operand. -/
noncomputable def add (A d : SM K) : SM K × SM K :=
  if ‖A.scale‖ < 1e-15 ∧ ‖d.scale‖ < 1e-15 then (new [(0, fun _ => 0)] A.rows A.cols 1, d)
  else if ‖A.scale‖ < 1e-15 then (new d.diags d.rows d.cols d.scale, d)
  else if ‖d.scale‖ < 1e-15 then (new A.diags A.rows A.cols A.scale, d)
  else
    let f := (new A.diags A.rows A.cols A.scale).incorporateScale
    let d' := d.incorporateScale
    ({ f with diags := mergeAdd f.diags d'.diags }, d')

open Classical in
/-- `__sub__`, `/repo/shenfun/matrixbase.py:313-336`. -/
noncomputable def sub (A d : SM K) : SM K × SM K :=
  if ‖A.scale‖ < 1e-15 ∧ ‖d.scale‖ < 1e-15 then (new [(0, fun _ => 0)] A.rows A.cols 1, d)
  else if ‖A.scale‖ < 1e-15 then (new d.diags d.rows d.cols (-d.scale), d)
  else if ‖d.scale‖ < 1e-15 then (new A.diags A.rows A.cols A.scale, d)
  else
    let f := (new A.diags A.rows A.cols A.scale).incorporateScale
    let d' := d.incorporateScale
    ({ f with diags := mergeSub f.diags d'.diags }, d')

open Classical in
/-- `__iadd__`, `/repo/shenfun/matrixbase.py:289-311`, for distinct objects.  Returns both objects after
the call. -/
noncomputable def iadd (A d : SM K) : SM K × SM K :=
  if ‖d.scale‖ < 1e-16 then (A, d)
  else if ‖A.scale‖ < 1e-16 then ({ A with diags := d.diags, scale := d.scale }, d)
  else
    let f := A.incorporateScale
    let d' := d.incorporateScale
    ({ f with diags := mergeAdd f.diags d'.diags }, d')

open Classical in
/-- `__isub__`, `/repo/shenfun/matrixbase.py:338-360`, for distinct objects. -/
noncomputable def isub (A d : SM K) : SM K × SM K :=
  if ‖d.scale‖ < 1e-16 then (A, d)
  else if ‖A.scale‖ < 1e-16 then ({ A with diags := d.diags, scale := -d.scale }, d)
  else
    let f := A.incorporateScale
    let d' := d.incorporateScale
    ({ f with diags := mergeSub f.diags d'.diags }, d')

/-- `A += A` (`/repo/shenfun/matrixbase.py:289-311` with `d is self`): the second `incorporate_scale`
acts on the same object, and the loop doubles every value in place. -/
noncomputable def iaddSelf (A : SM K) : SM K :=
  open Classical in
  if ‖A.scale‖ < 1e-16 then A
  else
    let f := A.incorporateScale.incorporateScale
    { f with diags := f.diags.map fun d => (d.1, fun t => d.2 t + d.2 t) }

/-- `__neg__`, `/repo/shenfun/matrixbase.py:376-380`. -/
def neg (A : SM K) : SM K := { new A.diags A.rows A.cols A.scale with scale := A.scale * (-1) }

/-- `__mul__` by a number, `/repo/shenfun/matrixbase.py:222-227` (`__rmul__` 236-238). -/
def smul (A : SM K) (y : K) : SM K := { new A.diags A.rows A.cols A.scale with scale := A.scale * y }

/-- `__imul__`, `/repo/shenfun/matrixbase.py:216-220`. -/
def imul (A : SM K) (y : K) : SM K := { A with scale := A.scale * y }

open Classical in
/-- `__truediv__` by a number, `/repo/shenfun/matrixbase.py:240-263`; `none` is the AssertionError. -/
noncomputable def sdiv (A : SM K) (y : K) : Option (SM K) :=
  if ‖y‖ > 1e-8 then some { new A.diags A.rows A.cols A.scale with scale := A.scale / y } else none

end SM

end Shenfun
