import Verif.Model.Banded

/-!
# The banded solver objects as state machines (`/repo/shenfun/la.py`)

`BandedMatrixSolver` objects keep `_lu` (dia storage, factorised in place by the first call) and
`_inner_arg` (`None` until the factorisation is done).  `_lu.diagonal(k)` of scipy is a *view* of the stored
row `data[r, max(k,0):...]`, so `_lu.diagonal(k)[0] = v` writes `data[r, max(k,0)]`.
-/

namespace Shenfun

variable {K : Type*} [Field K]

/-- The banded solver classes of `/repo/shenfun/la.py` (lines 291, 331, 396, 450, 545, 615, 661, 711). -/
inductive Kind | diag | tdma | tdmaO | pdma | fdma | two | three | hepta
  deriving DecidableEq

/-- Offsets of the diagonals, in the order of the storage rows (docstrings of the classes cited at `Kind`,
`/repo/shenfun/la.py:291-720`). -/
def Kind.offs : Kind → List ℤ
  | .diag => [0]
  | .tdma => [-2, 0, 2]
  | .tdmaO => [-1, 0, 1]
  | .pdma => [-4, -2, 0, 2, 4]
  | .fdma => [-2, 0, 2, 4]
  | .two => [0, 2]
  | .three => [0, 2, 4]
  | .hepta => [-4, -2, 0, 2, 4, 6, 8]

/-- The in-place `LU` of each class; `DiagMA`, `TwoDMA`, `ThreeDMA` have none
(`perform_lu` just returns `_lu`, `/repo/shenfun/la.py:304-305, 639-640, 686-687`). -/
def Kind.factor : Kind → ℕ → Dia K → Dia K
  | .diag => fun _ D => D
  | .tdma => TDMA.lu
  | .tdmaO => TDMAO.lu
  | .pdma => PDMA.lu
  | .fdma => FDMA.lu
  | .two => fun _ D => D
  | .three => fun _ D => D
  | .hepta => HeptaDMA.lu

/-- `inner_solve` of each class (see `Model/Banded.lean`; `/repo/shenfun/la.py:318-813`). -/
def Kind.sweep : Kind → ℕ → Dia K → (ℕ → K) → (ℕ → K)
  | .diag => DiagMA.innerSolve
  | .tdma => TDMA.innerSolve
  | .tdmaO => TDMAO.innerSolve
  | .pdma => PDMA.innerSolve
  | .fdma => FDMA.innerSolve
  | .two => TwoDMA.innerSolve
  | .three => ThreeDMA.innerSolve
  | .hepta => HeptaDMA.innerSolve

/-- `__init__` of `DiagMA`, `TwoDMA`, `ThreeDMA` sets `_inner_arg = _lu.data`
(`/repo/shenfun/la.py:302, 625, 671`). -/
def Kind.preset : Kind → Bool
  | .diag | .two | .three => true
  | _ => false

/-- The storage writes `(row, column, value)` of `apply_constraints` for a constraint on row 0
(`/repo/shenfun/la.py:307-315, 355-364, 464-479, 578-588, 627-636, 673-683, 725-742`).
`TDMA_O` inherits the generic method (`/repo/shenfun/la.py:77-129`), which leaves the matrix alone because
`_lu is not None`. -/
def Kind.fixes : Kind → List (ℕ × ℕ × K)
  | .diag => [(0, 0, 1)]
  | .tdma => [(1, 0, 1), (2, 2, 0)]
  | .tdmaO => []
  | .pdma => [(2, 0, 1), (3, 2, 0), (4, 4, 0)]
  | .fdma => [(1, 0, 1), (2, 2, 0), (3, 4, 0)]
  | .two => [(0, 0, 1), (1, 2, 0)]
  | .three => [(0, 0, 1), (1, 2, 0), (2, 4, 0)]
  | .hepta => [(2, 0, 1), (3, 2, 0), (4, 4, 0), (5, 6, 0), (6, 8, 0)]

/-- Whether `apply_constraints` also executes `self._inner_arg = self._lu.data`
(`/repo/shenfun/la.py:478, 741`). -/
def Kind.fixMarks : Kind → Bool
  | .pdma | .hepta => true
  | _ => false

/-- Solver object: `n`, the storage `_lu.data`, whether `_inner_arg` is set, and (ghost) how often `LU` ran.
`/repo/shenfun/la.py:57-69, 251-254`. -/
structure BandedObj (K : Type*) where
  n : ℕ
  lu : Dia K
  innerSet : Bool
  luRuns : ℕ

/-- Constructor: `_lu = mat.diags('dia')`, `/repo/shenfun/la.py:251-254, 299-302, 624-625, 670-671`. -/
def BandedObj.new (k : Kind) (n : ℕ) (data : Dia K) : BandedObj K :=
  { n := n, lu := data, innerSet := k.preset, luRuns := 0 }

/-- `apply_constraints` with `constraints = ((0, val),)`, or nothing to do
(`/repo/shenfun/la.py:355-364` and the other methods cited at `Kind.fixes`). -/
def BandedObj.applyConstraints (k : Kind) (s : BandedObj K) (con : Option K) (b : ℕ → K) :
    BandedObj K × (ℕ → K) :=
  match con with
  | none => (s, b)
  | some val =>
    ({ s with lu := k.fixes.foldl (fun D w => D.set w.1 w.2.1 w.2.2) s.lu,
              innerSet := s.innerSet || k.fixMarks }, Function.update b 0 val)

/-- `perform_lu`, `/repo/shenfun/la.py:304-305, 366-370, 404-408, 511-515, 558-562, 639-640, 686-687,
782-786`. -/
def BandedObj.performLu (k : Kind) (s : BandedObj K) : BandedObj K :=
  if k.preset then s
  else if s.innerSet then s
  else { s with lu := k.factor s.n s.lu, innerSet := true, luRuns := s.luRuns + 1 }

/-- `__call__` for a one-dimensional array, without boundary matrices (`apply_bcs` does nothing then):
`/repo/shenfun/la.py:214-249` and `solve`, `/repo/shenfun/la.py:256-261`. Returns the new object and the
solution. -/
def BandedObj.call (k : Kind) (s : BandedObj K) (con : Option K) (b : ℕ → K) : BandedObj K × (ℕ → K) :=
  let (s, b) := s.applyConstraints k con b
  let s := s.performLu k
  (s, k.sweep s.n s.lu b)

/-- A history of calls on one object (`/repo/shenfun/la.py:214-249`, repeated), returning the final
object and the list of results. -/
def BandedObj.run (k : Kind) (s : BandedObj K) : List (Option K × (ℕ → K)) → BandedObj K × List (ℕ → K)
  | [] => (s, [])
  | (con, b) :: rest =>
    let r := s.call k con b
    let r' := r.1.run k rest
    (r'.1, r.2 :: r'.2)

end Shenfun
