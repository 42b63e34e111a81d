import Verif.Model.Py
import Mathlib.Analysis.SpecialFunctions.Gamma.Beta
import Mathlib.Algebra.Module.Basic

/-!
# Conversions between Legendre and Chebyshev coefficients (direct methods)

`/repo/shenfun/optimization/numba/transforms.py:233-420`, `/repo/shenfun/optimization/cython/transforms.pyx:523-660,
883-935, 1054-1098`, `/repo/shenfun/optimization/cython/leg2chebm.pyx` and `/repo/shenfun/legendre/dlt.py:352-480,
985-1200`.  Exact real arithmetic replaces floating point, so `Lambda` is the quotient of Gamma functions (the code uses
`exp(gammaln - gammaln)`, and a Chebyshev fit for large arguments in
`/repo/shenfun/optimization/cython/transforms.pyx:500-521`).  Coefficients lie in a real vector space `E` (complex and
multidimensional arrays are instances: every function is applied to each line along the axis).
-/

namespace Shenfun

variable {E : Type*} [AddCommGroup E] [Module ℝ E]

/-- `Lambda`, `Omega`, `/repo/shenfun/optimization/cython/transforms.pyx:482-521`,
`/repo/shenfun/optimization/numba/transforms.py:233`. -/
noncomputable def Lam (z : ℝ) : ℝ := Real.Gamma (z + 1 / 2) / Real.Gamma (z + 1)

/-- The array `a` of Legendre to Chebyshev, `/repo/shenfun/optimization/numba/transforms.py:262-263`. -/
noncomputable def l2cA (k : ℕ) : ℝ := Lam k

/-- The array `a` of Chebyshev to Legendre, `/repo/shenfun/optimization/numba/transforms.py:300-304`. -/
noncomputable def c2lA (k : ℕ) : ℝ :=
  if k = 0 then 2 / Real.sqrt Real.pi else 1 / (2 * Lam k * k * ((k:ℝ) + 1 / 2))

/-- The array `dn`, `/repo/shenfun/optimization/numba/transforms.py:301-302`: entry `m` comes from `k[2m]`, with `k[0] = 1`. -/
noncomputable def c2lD (m : ℕ) : ℝ :=
  let k : ℝ := if m = 0 then 1 else 2 * m
  Lam ((k - 2) / 2) / k

/-- The row operation `v[i] += a[n]*a[n+i]*u[2n+i]` for `i` in `range(N-2n)`,
`/repo/shenfun/optimization/numba/transforms.py:242-243, 330-331`. -/
def l2cRow (a : ℕ → ℝ) (N : ℕ) (u : ℕ → E) (n : ℕ) (v : ℕ → E) : ℕ → E :=
  forN (fun i v => Function.update v i (v i + (a n * a (n + i)) • u (2 * n + i))) v (N - 2 * n)

/-- The transposed row operation `v[i+2n] += a[n]*a[n+i]*u[i]`,
`/repo/shenfun/optimization/numba/transforms.py:251-252, 334-335`. -/
def l2cRowT (a : ℕ → ℝ) (N : ℕ) (u : ℕ → E) (n : ℕ) (v : ℕ → E) : ℕ → E :=
  forN (fun i v => Function.update v (i + 2 * n) (v (i + 2 * n) + (a n * a (n + i)) • u i)) v (N - 2 * n)

/-- `FMMdirect1(u, v, a, n0, trans)`, `/repo/shenfun/optimization/numba/transforms.py:326-335`,
`/repo/shenfun/optimization/cython/transforms.pyx:905-934`. -/
def FMMdirect1 (a : ℕ → ℝ) (N n0 : ℕ) (trans : Bool) (u v : ℕ → E) : ℕ → E :=
  forN (if trans then l2cRowT a N u else l2cRow a N u) v n0

/-- `_leg2cheb(c, v, a, N, transpose)` on a zeroed output, `/repo/shenfun/optimization/numba/transforms.py:236-252` and
`/repo/shenfun/optimization/cython/transforms.pyx:588-627`; `range(0, N, 2)` has `(N+1)/2` members. -/
noncomputable def leg2cheb (N : ℕ) (transpose : Bool) (c : ℕ → E) : ℕ → E :=
  if transpose then
    let cv : ℕ → E := fun i => (2 / Real.pi) • c i
    let cv := Function.update cv 0 ((1 / 2 : ℝ) • cv 0)
    forN (l2cRowT l2cA N cv) (fun _ => 0) ((N + 1) / 2)
  else
    let v := forN (l2cRow l2cA N c) (fun _ => 0) ((N + 1) / 2)
    let v := Function.update v 0 ((1 / 2 : ℝ) • v 0)
    fun i => (2 / Real.pi) • v i

/-- The branch of `Leg2Cheb.__call__` for arrays of more than one dimension with `N ≤ use_direct`,
`/repo/shenfun/optimization/cython/leg2chebm.pyx:150-170` (`n0 = N`) and `FMMLeg2Cheb.__call__`,
`/repo/shenfun/legendre/dlt.py:1061-1072` (`n0 = N//2`). -/
noncomputable def leg2chebND (N n0 : ℕ) (transpose : Bool) (c : ℕ → E) : ℕ → E :=
  if transpose then
    let cv : ℕ → E := fun i => (2 / Real.pi) • c i
    let cv := Function.update cv 0 ((1 / 2 : ℝ) • cv 0)
    FMMdirect1 l2cA N n0 true cv (fun _ => 0)
  else
    let v := FMMdirect1 l2cA N n0 false c (fun _ => 0)
    let v : ℕ → E := fun i => (2 / Real.pi) • v i
    Function.update v 0 ((1 / 2 : ℝ) • v 0)

/-- `c[:(N-2n)] -= dn[n]*a[n:(N-n)]*vn[2n:]`, `/repo/shenfun/optimization/numba/transforms.py:288-289, 371-372`. -/
def c2lRow (dn a : ℕ → ℝ) (N : ℕ) (u : ℕ → E) (n : ℕ) (v : ℕ → E) : ℕ → E :=
  forN (fun i v => Function.update v i (v i - (dn n * a (n + i)) • u (2 * n + i))) v (N - 2 * n)

/-- `vn`: the input with entry `i ≥ 1` times `i`, `/repo/shenfun/optimization/numba/transforms.py:284-286`,
`/repo/shenfun/legendre/dlt.py:1170-1171`. -/
noncomputable def c2lIn (c : ℕ → E) : ℕ → E := fun i => if i = 0 then c 0 else (i : ℝ) • c i

/-- `_cheb2leg(v, c, a, dn, N)`, `/repo/shenfun/optimization/numba/transforms.py:282-291` and
`/repo/shenfun/optimization/cython/transforms.pyx:630-660`; `range(2, N, 2)` is `2(t+1)` for `t < (N-1)/2`. -/
noncomputable def cheb2leg (N : ℕ) (v : ℕ → E) : ℕ → E :=
  let vn := c2lIn v
  let c : ℕ → E := fun i => (Real.sqrt Real.pi * c2lA i) • vn i
  let c := forN (fun t c => c2lRow c2lD c2lA N vn (t + 1) c) c ((N - 1) / 2)
  fun i => ((i:ℝ) + 1 / 2) • c i

/-- `FMMdirect4(u, v, dn, a, n0)`, `/repo/shenfun/optimization/numba/transforms.py:367-372`,
`/repo/shenfun/optimization/cython/transforms.pyx:1059-1083`: `range(1, n0)`. -/
noncomputable def FMMdirect4 (dn a : ℕ → ℝ) (N n0 : ℕ) (u v : ℕ → E) : ℕ → E :=
  let v : ℕ → E := fun i => v i + (Real.sqrt Real.pi * a i) • u i
  forN (fun t v => c2lRow dn a N u (t + 1) v) v (n0 - 1)

/-- The branch of `Cheb2Leg.__call__` for arrays of more than one dimension with `N ≤ use_direct`,
`/repo/shenfun/optimization/cython/leg2chebm.pyx:232-238`, `/repo/shenfun/legendre/dlt.py:1167-1180`; the code passes
`n0 = N//2`. -/
noncomputable def cheb2legND (N n0 : ℕ) (v : ℕ → E) : ℕ → E :=
  let w0 := c2lIn v
  let o := FMMdirect4 c2lD c2lA N n0 w0 (fun _ => 0)
  fun i => ((i:ℝ) + 1 / 2) • o i

end Shenfun
