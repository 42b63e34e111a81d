import Mathlib.Algebra.Field.Basic
import Mathlib.Logic.Function.Basic

/-!
# Python building blocks used by the transcriptions

Simplifications shared by every model file:
* floating point numbers are replaced by an arbitrary field `K`;
* a one-dimensional numpy array of length `n` is a total function `ℕ → K`; the length is kept next to it;
* in-place assignment `a[i] = v` is `Function.update a i v`.
-/

namespace Shenfun

/-- `for i in range(k): s = f i s`, the Python counted loop (language construct, used by
`/repo/shenfun/la.py:346-385` and every other loop transcribed here). -/
def forN {S : Type*} (f : ℕ → S → S) (s : S) : ℕ → S
  | 0 => s
  | k + 1 => f k (forN f s k)

/-- Python index normalisation: a negative index `i` of an array of length `n` means `n + i`
(numpy indexing, reached e.g. by `u[n-2]` with `n = 1` in `/repo/shenfun/la.py:382`).
Out-of-range indices (IndexError in Python) are not represented. -/
def pyIdx (n : ℕ) (i : ℤ) : ℕ := if i < 0 then (i + n).toNat else i.toNat

/-- Two-dimensional storage `data[r, c]` of a scipy `dia_matrix` (`/repo/shenfun/la.py:254`:
`self._lu = self.mat.diags('dia')`, whose `.data` the solvers work on). -/
abbrev Dia (K : Type*) := ℕ → ℕ → K

/-- In-place assignment `data[r, c] = v`. -/
def Dia.set {K : Type*} (D : Dia K) (r c : ℕ) (v : K) : Dia K :=
  Function.update D r (Function.update (D r) c v)

end Shenfun
