import Verif.Model.Assembly

/-!
# Hard-coded spectral matrices: common part

An `assemble` method returns a dictionary of diagonals; a value is a number or a numpy array of a given length.
`SpectralMatrix.__init__` (`/repo/shenfun/matrixbase.py:623-696`) stores it with shape `(test.dim(), trial.dim())`.
Exact real arithmetic; the reference domain `(-1, 1)` (other domains: `stencilEntry`).
-/

namespace Shenfun

/-- A value of the dictionary returned by an `assemble` method: a number, or an array with its length. -/
inductive DVal where
  | scalar (c : ℝ)
  | array (len : ℕ) (f : ℕ → ℝ)

/-- Value at one position of the diagonal; a number is broadcast by `scipy.sparse.diags`. -/
def DVal.get : DVal → ℕ → ℝ
  | .scalar c, _ => c
  | .array _ f, t => f t

/-- `scipy.sparse.diags` accepts a number, or an array whose length is the length of the diagonal
(`/repo/shenfun/matrixbase.py:169-177`). -/
def DVal.Fits : DVal → ℕ → Prop
  | .scalar _, _ => True
  | .array len _, n => len = n

/-- The dictionary of diagonals returned by an `assemble` method. -/
abbrev DMat := List (ℤ × DVal)

/-- The `SparseMatrix` with these diagonals, `/repo/shenfun/matrixbase.py:77-85, 692`. -/
def DMat.mat (d : DMat) (rows cols : ℕ) : SM ℝ := SM.new (d.map fun e => (e.1, e.2.get)) rows cols 1

/-- `dict.fromkeys(np.arange(lo, hi, 2), f)` with a callable evaluated by `__getitem__`
(`/repo/shenfun/matrixbase.py:182-186`). -/
def fromkeys2 (lo : ℤ) (hi : ℤ) (f : ℤ → DVal) : DMat :=
  (List.range ((hi - lo + 1) / 2).toNat).map fun t : ℕ => (lo + 2 * (t : ℤ), f (lo + 2 * (t : ℤ)))

end Shenfun
