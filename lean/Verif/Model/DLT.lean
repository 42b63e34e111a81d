import Verif.Model.Py
import Verif.Model.Leg2Cheb
import Verif.Spec.DCT
import Mathlib.Analysis.InnerProductSpace.Basic
import Mathlib.Analysis.SpecialFunctions.Trigonometric.Inverse

/-!
# Fast discrete Legendre transform

`/repo/shenfun/legendre/dlt.py:20-341`.  `xl`, `wl` are the points and weights of `fastgl.leggauss(N)` (increasing points).
Entries of arrays along the transformed axis lie in a real normed space `E` (the remaining axes).
-/

namespace Shenfun

open Real Spec

variable {E : Type*} [NormedAddCommGroup E] [NormedSpace ℝ E]

/-- `DCT.__call__`, `/repo/shenfun/legendre/dlt.py:264-274`, types 2 and 3. -/
noncomputable def dltDCT (type3 : Bool) (N : ℕ) (x : ℕ → E) (k : ℕ) : E :=
  if type3 then (1/2 : ℝ) • (dct3 N x k + x 0) else (1/2 : ℝ) • dct2 N x k

/-- `DST.__call__`, `/repo/shenfun/legendre/dlt.py:326-342`, types 2 and 3: the array is shifted by one. -/
noncomputable def dltDST (type3 : Bool) (N : ℕ) (x : ℕ → E) (k : ℕ) : E :=
  if type3 then (1/2 : ℝ) • dst3 N (fun j => if j < N - 1 then x (j + 1) else 0) k
  else (1/2 : ℝ) • (if k = 0 then 0 else dst2 N x (k - 1))

/-- `self.dtheta = arccos(xl)[::-1] - arccos(xc)`, `/repo/shenfun/legendre/dlt.py:113-120`, with numpy's
`chebgauss`: `xc = cos(pi*arange(1, 2N, 2)/(2N))`. -/
noncomputable def dltDtheta (N : ℕ) (xl : ℕ → ℝ) (j : ℕ) : ℝ :=
  arccos (xl (N - 1 - j)) - arccos (cos (π * (1 + 2 * j) / (2 * N)))

/-- Local variables of the loop, `/repo/shenfun/legendre/dlt.py:165-176`; `df` is the last increment. -/
structure DLTState (E : Type*) where
  x : ℕ → E
  y : ℕ → ℝ
  nfac : ℕ
  n : ℕ
  fk : ℕ → E
  df : ℕ → E

/-- One pass of the loop body, `/repo/shenfun/legendre/dlt.py:177-195`. -/
noncomputable def dltStep (backward : Bool) (N : ℕ) (dtheta : ℕ → ℝ) (s : DLTState E) : DLTState E :=
  let even := s.n % 2 = 0
  let deven := (s.n + 1) / 2 % 2 = 0
  let nfac := s.nfac * s.n
  let x : ℕ → E := if backward then fun k => (k:ℝ) • s.x k else fun j => dtheta j • s.x j
  let y : ℕ → ℝ := if backward then fun j => s.y j * dtheta j else fun k => s.y k * k
  let sign : ℝ := if deven then 1 else -1
  let h : ℕ → E := if even then dltDCT backward N x else dltDST backward N x
  let df : ℕ → E := fun i => (sign / nfac * y i) • h i
  ⟨x, y, nfac, s.n + 1, fun i => s.fk i + df i, df⟩

/-- The variables before the loop, `/repo/shenfun/legendre/dlt.py:163-176`.  `conv` is the call of the `Leg2Cheb` object. -/
noncomputable def dltInit (backward : Bool) (N : ℕ) (wl : ℕ → ℝ) (conv : (ℕ → E) → ℕ → E) (u : ℕ → E) : DLTState E :=
  let x : ℕ → E := if backward then conv u else fun j => wl j • u j
  ⟨x, fun _ => 1, 1, 1, dltDCT backward N x, fun _ => 0⟩

/-- The variables after `m` passes. -/
noncomputable def dltAfter (backward : Bool) (N : ℕ) (dtheta wl : ℕ → ℝ) (conv : (ℕ → E) → ℕ → E) (u : ℕ → E) (m : ℕ) :
    DLTState E :=
  forN (fun _ s => dltStep backward N dtheta s) (dltInit backward N wl conv u) m

/-- `error = np.linalg.norm(df)`, `/repo/shenfun/legendre/dlt.py:192`. -/
noncomputable def dltError (N : ℕ) (s : DLTState E) : ℝ := √(∑ i ∈ Finset.range N, ‖s.df i‖ ^ 2)

/-- The result for `kind='backward'` when the loop has stopped in state `s`: the array reversed,
`/repo/shenfun/legendre/dlt.py:200-201`. -/
def dltFinishB (N : ℕ) (s : DLTState E) (j : ℕ) : E := s.fk (N - 1 - j)

/-- The result for `kind='scalar product'` and `'forward'`: `convT` is the transposed call of `Leg2Cheb`, then `nsign`,
`/repo/shenfun/legendre/dlt.py:122-129, 197-199`. -/
noncomputable def dltFinishS (forward : Bool) (convT : (ℕ → E) → ℕ → E) (s : DLTState E) (k : ℕ) : E :=
  ((if k % 2 = 1 then -1 else 1) * (if forward then (k:ℝ) + 1/2 else 1)) • convT s.fk k

/-- `while not converged`, `converged = error < 1e-16`: the loop stops after `m ≥ 1` passes,
`/repo/shenfun/legendre/dlt.py:176-195`. -/
def dltStops (tol : ℝ) (backward : Bool) (N : ℕ) (dtheta wl : ℕ → ℝ) (conv : (ℕ → E) → ℕ → E) (u : ℕ → E) (m : ℕ) : Prop :=
  1 ≤ m ∧ dltError N (dltAfter backward N dtheta wl conv u m) < tol ∧
    ∀ i, 1 ≤ i → i < m → ¬ dltError N (dltAfter backward N dtheta wl conv u i) < tol

end Shenfun
