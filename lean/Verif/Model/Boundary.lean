import Verif.Model.Stencil
import Verif.Spec.Boundary
import Mathlib.LinearAlgebra.Matrix.NonsingularInverse

/-!
# Boundary conditions

`/repo/shenfun/spectralbase.py:1818-2027` (`BoundaryConditions`), `/repo/shenfun/utilities/findbasis.py`,
`/repo/shenfun/jacobi/recursions.py:147-180` (`bnd_values`), `/repo/shenfun/spectralbase.py:1676-1811`
(`BCGeneric`), `/repo/shenfun/tensorproductspace.py:1859-2143` (`BoundaryValues`, one dimension).
Exact real arithmetic replaces `float` and sympy.
-/

namespace Shenfun

open Polynomial Spec

/-- The keys of the condition dictionaries, `/repo/shenfun/spectralbase.py:1823-1861, 1973-1975`. -/
inductive BCKind where
  | D | N | N2 | N3 | N4 | N5 | R | W
deriving DecidableEq

/-- The values: a number, or the pair `(c, d)` of Robin conditions. -/
inductive BCVal where
  | num (v : ℝ)
  | pair (c d : ℝ)

/-- `val[1] if isinstance(val, (tuple, list)) else val`, `/repo/shenfun/spectralbase.py:2012`. -/
def BCVal.value : BCVal → ℝ
  | .num v => v
  | .pair _ d => d

/-- The dictionary `{'left': {...}, 'right': {...}}`.  Only look-ups and sorted traversals are made of it, so the
insertion order is left out. -/
structure BCs where
  left : BCKind → Option BCVal
  right : BCKind → Option BCVal

namespace BCs

/-- `bcs['left']` / `bcs['right']`. -/
def side (b : BCs) : Side → BCKind → Option BCVal
  | .left => b.left
  | .right => b.right

/-- `{'left': {}, 'right': {}}`, `/repo/shenfun/spectralbase.py:1897`. -/
def empty : BCs := ⟨fun _ => none, fun _ => none⟩

/-- `bcs[side][key] = v`. -/
def set (b : BCs) (s : Side) (k : BCKind) (v : BCVal) : BCs :=
  match s with
  | .left => { b with left := Function.update b.left k (some v) }
  | .right => { b with right := Function.update b.right k (some v) }

/-- Keys of the tuple forms in the order of the tuple, `/repo/shenfun/spectralbase.py:1960-1975`. -/
def tupleKeys : List BCKind := [.D, .N, .N2, .N3, .N4, .N5]

/-- The dictionary with the first keys set to the given values: `bcs['left'].update({'D': bc[0], ...})`. -/
def sideOf (vs : List ℝ) (k : BCKind) : Option BCVal :=
  ((tupleKeys.zip vs).find? fun e => e.1 = k).map fun e => BCVal.num e.2

/-- The tuple forms, `/repo/shenfun/spectralbase.py:1949-1975`; `none` for tuples whose length is refused by the
`assert`.  `None` in a tuple longer than two is not modelled (it is treated as refused). -/
def ofTuple (bc : List (Option ℝ)) : Option BCs :=
  if bc.length ∈ [1, 2, 4, 6, 8, 10, 12] then
    match bc with
    | [a] => a.map fun a => ⟨sideOf [a], fun _ => none⟩
    | [a, b] => some ⟨sideOf a.toList, sideOf b.toList⟩
    | l => (l.mapM id).map fun vs => ⟨sideOf (vs.take (vs.length / 2)), sideOf (vs.drop (vs.length / 2))⟩
  else none

/-- Key of `u''...'`, `/repo/shenfun/spectralbase.py:1903-1946`; more than four primes are not understood. -/
def stringKey : ℕ → Option BCKind
  | 0 => some .D
  | 1 => some .N
  | 2 => some .N2
  | 3 => some .N3
  | 4 => some .N4
  | _ => none

open Classical in
/-- The string form, `/repo/shenfun/spectralbase.py:1899-1947`, starting from the matches of the regular expressions:
one entry `(number of primes, point, value)` for each part between `&&`.  `none` stands for the `RuntimeError`s. -/
noncomputable def ofString (lower upper : ℝ) : List (ℕ × ℝ × ℝ) → Option BCs :=
  fun l => l.foldlM (fun b e => (stringKey e.1).bind fun k =>
    if |e.2.1 - lower| < 1e-8 then some (b.set .left k (.num e.2.2))
    else if |e.2.1 - upper| < 1e-8 then some (b.set .right k (.num e.2.2))
    else none) empty

/-- `df`, `/repo/shenfun/spectralbase.py:1988-1992`; `none` is `domain=None`. -/
noncomputable def df : Option (ℝ × ℝ) → ℝ
  | none => 1
  | some d => 2 / (d.2 - d.1)

/-- `val[bc] /= df**k`, numbers only. -/
noncomputable def scaleVal (f : ℝ) (k : ℕ) : BCVal → BCVal
  | .num v => .num (v / f ^ k)
  | .pair c d => .pair c d

/-- The values of one key after `/repo/shenfun/spectralbase.py:1994-2001`. -/
noncomputable def scaleKey (f : ℝ) : BCKind → BCVal → BCVal
  | .N, v => scaleVal f 1 v
  | .N2, v => scaleVal f 2 v
  | .N3, v => scaleVal f 3 v
  | _, v => v

/-- `BoundaryConditions.__init__` from the unscaled dictionary on, `/repo/shenfun/spectralbase.py:1987-2002`. -/
noncomputable def new (raw : BCs) (domain : Option (ℝ × ℝ)) : BCs :=
  ⟨fun k => (raw.left k).map (scaleKey (df domain) k), fun k => (raw.right k).map (scaleKey (df domain) k)⟩

/-- `sorted(keys)`: the alphabetical order of all keys. -/
def sortedKeys : List BCKind := [.D, .N, .N2, .N3, .N4, .N5, .R, .W]

/-- The conditions in the order of `orderednames`/`orderedvals`, `/repo/shenfun/spectralbase.py:2004-2013`. -/
def entries (b : BCs) : List (Side × BCKind × BCVal) :=
  (sortedKeys.filterMap fun k => (b.left k).map fun v => (Side.left, k, v)) ++
  (sortedKeys.filterMap fun k => (b.right k).map fun v => (Side.right, k, v))

/-- `orderedvals`, `/repo/shenfun/spectralbase.py:2007-2013`. -/
def orderedvals (b : BCs) : List ℝ := b.entries.map fun e => e.2.2.value

/-- `num_bcs`, `/repo/shenfun/spectralbase.py:2016-2017`. -/
def numBcs (b : BCs) : ℕ := b.orderedvals.length

/-- The dictionary `n` of `/repo/shenfun/spectralbase.py:2020`; `none` is a `KeyError`. -/
def derivOrder : BCKind → Option ℕ
  | .D => some 0 | .R => some 0 | .N => some 1 | .N2 => some 2 | .N3 => some 3 | .N4 => some 4
  | _ => none

/-- `num_derivatives`, `/repo/shenfun/spectralbase.py:2019-2025`. -/
def numDerivatives (b : BCs) : Option ℕ := (b.entries.mapM fun e => derivOrder e.2.1).map List.sum

end BCs

/-! ## Boundary values of the orthogonal families -/

/-- `sp.binomial(x, k)` for integer `k`: zero for negative `k`. -/
noncomputable def spBinomial (x : ℝ) (k : ℤ) : ℝ := if k < 0 then 0 else gbinom x k.toNat

/-- `gam`, `/repo/shenfun/jacobi/recursions.py:168-171`. -/
noncomputable def bndGam (alf bet : ℝ) (k : ℕ) (i : ℕ) : ℝ :=
  if k > 0 then rf (i + alf + bet + 1) k * (1 / 2 ^ k) else 1

/-- `bnd_values(alf, bet, k, gn)`, `/repo/shenfun/jacobi/recursions.py:173-180`: left and right value. -/
noncomputable def bndValues (alf bet : ℝ) (gn : ℕ → ℝ) (k : ℕ) : Side → ℕ → ℝ
  | .left, i => gn i * (-1) ^ (k + i) * bndGam alf bet k i * spBinomial (i + bet) (i - k)
  | .right, i => gn i * bndGam alf bet k i * spBinomial (i + alf) (i - k)

/-- `cn`, `/repo/shenfun/jacobi/recursions.py:63-81`. -/
noncomputable def cnF (alf bet : ℝ) (n : ℕ) : ℝ := 1 / (Spec.jacobi alf bet n).eval 1

/-- `un`, `/repo/shenfun/jacobi/recursions.py:83-101`. -/
noncomputable def unF (alf bet : ℝ) (n : ℕ) : ℝ := (n + 1) / (Spec.jacobi alf bet n).eval 1

/-- `wn`, `/repo/shenfun/jacobi/recursions.py:42-60`. -/
noncomputable def wnF (alf : ℝ) (n : ℕ) : ℝ := rf (2 * alf + 1) n / rf (alf + 1) n

/-! ## `findbasis` -/

/-- One row of the systems of `findbasis`: a derivative, or `f0 + alfa f1` with consecutive derivatives,
`/repo/shenfun/utilities/findbasis.py:48-57`. -/
inductive BCRow where
  | deriv (k : ℕ)
  | mixed (k0 : ℕ) (alfa : ℝ)

/-- Row of a condition, `/repo/shenfun/utilities/findbasis.py:42, 49-55`; `none` for the `KeyError` of `N5` and the
`TypeError` of indexing a number. -/
def bcRow : BCKind → BCVal → Option BCRow
  | .D, _ => some (.deriv 0)
  | .N, _ => some (.deriv 1)
  | .N2, _ => some (.deriv 2)
  | .N3, _ => some (.deriv 3)
  | .N4, _ => some (.deriv 4)
  | .N5, _ => none
  | .R, .pair c _ => some (.mixed 0 c)
  | .W, .pair c _ => some (.mixed 1 c)
  | _, .num _ => none

/-- The rows for all conditions in order, `/repo/shenfun/utilities/findbasis.py:47-48`. -/
def bcRows (b : BCs) : Option (List (Side × BCRow)) := b.entries.mapM fun e => (bcRow e.2.1 e.2.2).map fun r => (e.1, r)

/-- `f(j)`, or `f[0](j)+alfa*f[1](j)`, `/repo/shenfun/utilities/findbasis.py:52-57`. -/
noncomputable def rowValue (bv : ℕ → Side → ℕ → ℝ) (r : Side × BCRow) (j : ℕ) : ℝ :=
  match r.2 with
  | .deriv k => bv k r.1 j
  | .mixed k0 alfa => bv k0 r.1 j + alfa * bv (k0 + 1) r.1 j

/-- The matrix `A`, `/repo/shenfun/utilities/findbasis.py:53, 57, 59`, at one value of the symbol `n`. -/
noncomputable def stencilSystem (bv : ℕ → Side → ℕ → ℝ) (rows : List (Side × BCRow)) (n : ℕ) :
    Matrix (Fin rows.length) (Fin rows.length) ℝ := fun r j => rowValue bv (rows.get r) (n + (1 + j))

/-- `M = A.solve(b)`, `/repo/shenfun/utilities/findbasis.py:54, 58-61`, at one value of the symbol `n`
(total inverse: zero where `A` is singular). -/
noncomputable def stencilSolution (bv : ℕ → Side → ℕ → ℝ) (rows : List (Side × BCRow)) (n : ℕ) :
    Fin rows.length → ℝ := (stencilSystem bv rows n)⁻¹.mulVec fun r => -rowValue bv (rows.get r) n

open Classical in
/-- `get_stencil_matrix`, `/repo/shenfun/utilities/findbasis.py:59-66`.  The sympy expressions in `n` are the functions
of their values at the natural numbers; an expression without `n` is a constant.  `none` if the system is singular for
every `n`. -/
noncomputable def getStencilMatrix (bv : ℕ → Side → ℕ → ℝ) (rows : List (Side × BCRow)) : Option Stencil :=
  if ∀ n, (stencilSystem bv rows n).det = 0 then none
  else some ((0, .const 1) :: (List.finRange rows.length).filterMap fun i =>
    if ∀ n, stencilSolution bv rows n i = 0 then none
    else some (i + 1, if ∀ n, stencilSolution bv rows n i = stencilSolution bv rows 0 i
      then .const (stencilSolution bv rows 0 i) else .expr fun x => stencilSolution bv rows ⌊x⌋₊ i))

/-- `A` of `_computematrix(first)`, `/repo/shenfun/utilities/findbasis.py:99-114`. -/
noncomputable def bcSystem (bv : ℕ → Side → ℕ → ℝ) (rows : List (Side × BCRow)) (first : ℕ) :
    Matrix (Fin rows.length) (Fin rows.length) ℝ := fun r j => rowValue bv (rows.get r) (first + j)

/-- `sol` of `get_bc_basis`, `/repo/shenfun/utilities/findbasis.py:115, 127-129`: entry `(r, c)`. -/
noncomputable def bcSol (bv : ℕ → Side → ℕ → ℝ) (rows : List (Side × BCRow)) (first : ℕ)
    (r : Fin rows.length) (c : ℕ) : ℝ :=
  if h : first ≤ c ∧ c - first < rows.length then ((bcSystem bv rows first)⁻¹.transpose) r ⟨c - first, h.2⟩ else 0

open Classical in
/-- `get_bc_basis`, `/repo/shenfun/utilities/findbasis.py:118-130`: the `first` that is used (the matrix is `bcSol`, with
`first + num_bcs` columns).  `none` if every attempt is singular. -/
noncomputable def getBcFirst (bv : ℕ → Side → ℕ → ℝ) (rows : List (Side × BCRow)) (numDeriv : ℕ) : Option ℕ :=
  (List.range (numDeriv + 1)).find? fun f => decide ((bcSystem bv rows f).det ≠ 0)

/-- `BCGeneric.basis_function(i)`, `/repo/shenfun/spectralbase.py:1764-1766`. -/
noncomputable def bcBasisFunction (Q : ℕ → ℝ[X]) (bv : ℕ → Side → ℕ → ℝ) (rows : List (Side × BCRow)) (first : ℕ)
    (r : Fin rows.length) : ℝ[X] :=
  ∑ j ∈ Finset.range (first + rows.length), C (bcSol bv rows first r j) * Q j

/-! ## Coefficients and boundary dofs -/

/-- `BoundaryValues.set_boundary_dofs`, `/repo/shenfun/tensorproductspace.py:2122-2128`, for a 1D array of length `N`. -/
def setBoundaryDofs (N : ℕ) (vals : List ℝ) (u : ℕ → ℝ) : ℕ → ℝ :=
  fun i => if N - vals.length ≤ i ∧ i < N then vals.getD (i - (N - vals.length)) 0 else u i

/-- Loop body of `CompositeBase.to_ortho`, `/repo/shenfun/spectralbase.py:1622-1631`. -/
noncomputable def toOrthoStep (N dim : ℕ) (u : ℕ → ℝ) (w : ℕ → ℝ) (d : ℤ × (ℕ → ℝ)) : ℕ → ℝ :=
  let M : ℤ := if 0 ≤ d.1 then N else dim
  let start := (max 0 (-d.1)).toNat
  let stop := (min (dim : ℤ) (M - max 0 d.1)).toNat
  let q := stop - start
  let s1 := (max 0 d.1).toNat
  SM.sliceAdd s1 (s1 + q) (fun t => d.2 t * u (start + t)) w

/-- `BoundaryValues._add_to_orthogonal`, `/repo/shenfun/tensorproductspace.py:2080-2089`: `M` is the transposed
stencil matrix of the boundary space, with `cols` rows. -/
noncomputable def addToOrthogonal (N m cols : ℕ) (sol : ℕ → ℕ → ℝ) (u w : ℕ → ℝ) : ℕ → ℝ :=
  fun i => if i < cols then w i + ∑ s ∈ Finset.range m, sol s i * u (N - m + s) else w i

/-- `CompositeBase.to_ortho`, `/repo/shenfun/spectralbase.py:1616-1634`. -/
noncomputable def toOrtho (A : SM ℝ) (N dim m cols : ℕ) (sol : ℕ → ℕ → ℝ) (nonhom : Bool) (u : ℕ → ℝ) : ℕ → ℝ :=
  let w := A.diags.foldl (toOrthoStep N dim u) (fun _ => 0)
  if nonhom then addToOrthogonal N m cols sol u w else w

end Shenfun
