import Verif.Model.Py
import Mathlib.Analysis.SpecialFunctions.Trigonometric.Basic
import Mathlib.Analysis.Complex.Trigonometric

/-!
# Evaluation of a function at points

`/repo/shenfun/tensorproductspace.py:668-856` and the compiled loops `/repo/shenfun/optimization/cython/evaluate.pyx`.  The points
are independent of each other in all versions: everything is modelled for one point.  Exact arithmetic.  `u` holds the local
coefficients, `n0, n1, n2` its shape.
-/

namespace Shenfun

namespace Eval

open Complex

/-- One row `P[i, :]` of `evaluate_basis_all(x)[..., local_slice]` with its dtype
(`/repo/shenfun/tensorproductspace.py:836-837`): complex for Fourier, real otherwise. -/
inductive Row
  | r (P : ℕ → ℝ)
  | c (P : ℕ → ℂ)

/-- The condition of the compiled code, `if ii > 0 & ii < M` (`/repo/shenfun/optimization/cython/evaluate.pyx:85, 123, 159, 279`, …).
`&` binds more strongly than comparisons, which are chained: `ii > (0 & ii)` and `(0 & ii) < M`. -/
def twice (ii : ℕ) (M : ℤ) : Prop := ii > 0 &&& ii ∧ ((0 &&& ii : ℕ) : ℤ) < M

instance (ii : ℕ) (M : ℤ) : Decidable (twice ii M) := by unfold twice; infer_instance

/-- `b[i] += p; if ii > 0 & ii < M: b[i] += p`, `/repo/shenfun/optimization/cython/evaluate.pyx:79-86`. -/
def addR2C (p : ℝ) (ii : ℕ) (M : ℤ) (b : ℝ) : ℝ :=
  let b := b + p
  if twice ii M then b + p else b

/-- `last_conj_index`, `/repo/shenfun/tensorproductspace.py:838-844`. -/
def lastConj (N : ℕ) : ℕ :=
  let M := N / 2 + 1
  if N % 2 = 0 then M - 1 else M

/-! ## Two dimensions, method 1 -/

/-- `_evaluate_2D_cc0`, `_evaluate_2D_rc0`, `_evaluate_2D_cr0`, `_evaluate_2D_rr0`,
`/repo/shenfun/optimization/cython/evaluate.pyx:52-66, 90-102, 127-139, 164-174`: the same loop for all dtypes. -/
def plain2 (n0 n1 : ℕ) (u : ℕ → ℕ → ℂ) (P0 P1 : ℕ → ℂ) (b : ℂ) : ℂ :=
  forN (fun k b => forN (fun l b => b + u k l * P0 k * P1 l) b n1) b n0

/-- `_evaluate_2D_cc1`, `_evaluate_2D_rc1`, `_evaluate_2D_cr1`, `/repo/shenfun/optimization/cython/evaluate.pyx:68-88, 105-125,
141-162`: the same loop for all dtypes. -/
def real2 (n0 n1 : ℕ) (u : ℕ → ℕ → ℂ) (P0 P1 : ℕ → ℂ) (r2c : ℤ) (M : ℤ) (start : ℕ) (b : ℝ) : ℝ :=
  forN (fun k b => forN (fun l b =>
    addR2C (u k l * P0 k * P1 l).re (if r2c = 0 then k + start else l + start) M b) b n1) b n0

/-- The row as complex numbers (mixed arithmetic promotes, `/repo/shenfun/optimization/cython/evaluate.pyx:101, 117`). -/
def Row.val : Row → ℕ → ℂ
  | .r P => fun k => (P k : ℂ)
  | .c P => P

/-- `evaluate_2D`, `/repo/shenfun/optimization/cython/evaluate.pyx:24-50`.  The real result with an R2C axis is embedded in `ℂ`. -/
noncomputable def evaluate2D (n0 n1 : ℕ) (u : ℕ → ℕ → ℂ) (P0 P1 : Row) (r2c : ℤ) (M : ℤ) (start : ℕ) : ℂ :=
  match P0, P1 with
  | .r _, .r _ => plain2 n0 n1 u P0.val P1.val 0
  | _, _ => if r2c < 0 then plain2 n0 n1 u P0.val P1.val 0 else (real2 n0 n1 u P0.val P1.val r2c M start 0 : ℝ)

/-! ## Three dimensions, method 1 -/

/-- `_evaluate_3D_ccc0`, `_evaluate_3D_rcc0`, `/repo/shenfun/optimization/cython/evaluate.pyx:220-250, 284-318`: three contractions
with work arrays `c` and `c2`. -/
def contract3 (n0 n1 n2 : ℕ) (u : ℕ → ℕ → ℕ → ℂ) (P0 P1 P2 : ℕ → ℂ) (b : ℂ) : ℂ :=
  let c := forN (fun k c => forN (fun l c => forN (fun m c => fun k' l' =>
    if k' = k ∧ l' = l then c k l + u k l m * P2 m else c k' l') c n2) c n1) (fun _ _ => (0:ℂ)) n0
  let c2 := forN (fun k c2 => forN (fun l c2 => Function.update c2 k (c2 k + c k l * P1 l)) c2 n1) (fun _ => (0:ℂ)) n0
  forN (fun k b => b + c2 k * P0 k) b n0

/-- `_evaluate_3D_crc0`, `_evaluate_3D_ccr0`, `_evaluate_3D_rrr`, `/repo/shenfun/optimization/cython/evaluate.pyx:348-364, 394-408,
513-527`. -/
def plain3 (n0 n1 n2 : ℕ) (u : ℕ → ℕ → ℕ → ℂ) (P0 P1 P2 : ℕ → ℂ) (b : ℂ) : ℂ :=
  forN (fun k b => forN (fun l b => forN (fun m b => b + u k l m * P0 k * P1 l * P2 m) b n2) b n1) b n0

/-- `_evaluate_3D_ccc1`, `/repo/shenfun/optimization/cython/evaluate.pyx:252-282`. -/
def ccc1 (n0 n1 n2 : ℕ) (u : ℕ → ℕ → ℕ → ℂ) (P0 P1 P2 : ℕ → ℂ) (r2c : ℤ) (M : ℤ) (start : ℕ) (b : ℝ) : ℝ :=
  forN (fun k b => forN (fun l b => forN (fun m b =>
    let p1 := P0 k * P1 l
    let p2 := p1 * P2 m
    let p := (u k l m).re * p2.re - (u k l m).im * p2.im
    addR2C p (if r2c = 0 then k + start else if r2c = 1 then l + start else m + start) M b) b n2) b n1) b n0

/-- `_evaluate_3D_rcc1`, `/repo/shenfun/optimization/cython/evaluate.pyx:320-346`. -/
def rcc1 (n0 n1 n2 : ℕ) (u : ℕ → ℕ → ℕ → ℂ) (P0 : ℕ → ℝ) (P1 P2 : ℕ → ℂ) (r2c : ℤ) (M : ℤ) (start : ℕ) (b : ℝ) : ℝ :=
  forN (fun k b => forN (fun l b => forN (fun m b =>
    let p0 := P1 l * P2 m
    let p := P0 k * ((u k l m).re * p0.re - (u k l m).im * p0.im)
    addR2C p (if r2c = 1 then l + start else m + start) M b) b n2) b n1) b n0

/-- `_evaluate_3D_crc1`, `/repo/shenfun/optimization/cython/evaluate.pyx:366-392`. -/
def crc1 (n0 n1 n2 : ℕ) (u : ℕ → ℕ → ℕ → ℂ) (P0 : ℕ → ℂ) (P1 : ℕ → ℝ) (P2 : ℕ → ℂ) (r2c : ℤ) (M : ℤ) (start : ℕ) (b : ℝ) : ℝ :=
  forN (fun k b => forN (fun l b => forN (fun m b =>
    let p0 := P0 k * P2 m
    let p := P1 l * ((u k l m).re * p0.re - (u k l m).im * p0.im)
    addR2C p (if r2c = 0 then k + start else m + start) M b) b n2) b n1) b n0

/-- `_evaluate_3D_ccr1`, `/repo/shenfun/optimization/cython/evaluate.pyx:410-436`. -/
def ccr1 (n0 n1 n2 : ℕ) (u : ℕ → ℕ → ℕ → ℂ) (P0 P1 : ℕ → ℂ) (P2 : ℕ → ℝ) (r2c : ℤ) (M : ℤ) (start : ℕ) (b : ℝ) : ℝ :=
  forN (fun k b => forN (fun l b => forN (fun m b =>
    let p0 := P0 k * P1 l
    let p := P2 m * ((u k l m).re * p0.re - (u k l m).im * p0.im)
    addR2C p (if r2c = 0 then k + start else l + start) M b) b n2) b n1) b n0

/-- `_evaluate_3D_rrc1`, `_evaluate_3D_rcr1`, `_evaluate_3D_crr1`, `/repo/shenfun/optimization/cython/evaluate.pyx:438-511`; `ax` is
the Fourier axis, `none` the failing `assert r2c == ax`. -/
def one1 (ax : ℤ) (n0 n1 n2 : ℕ) (u : ℕ → ℕ → ℕ → ℂ) (P0 P1 P2 : ℕ → ℂ) (r2c : ℤ) (M : ℤ) (start : ℕ) (b : ℝ) : Option ℝ :=
  if r2c = ax then
    some (forN (fun k b => forN (fun l b => forN (fun m b =>
      addR2C (u k l m * P0 k * P1 l * P2 m).re
        (if ax = 0 then k + start else if ax = 1 then l + start else m + start) M b) b n2) b n1) b n0)
  else none

/-- `evaluate_3D`, `/repo/shenfun/optimization/cython/evaluate.pyx:176-218`; `none` is an `AssertionError`. -/
noncomputable def evaluate3D (n0 n1 n2 : ℕ) (u : ℕ → ℕ → ℕ → ℂ) (P0 P1 P2 : Row) (r2c : ℤ) (M : ℤ) (start : ℕ) : Option ℂ :=
  match P0, P1, P2 with
  | .c Q0, .c Q1, .c Q2 =>
    if r2c < 0 then some (contract3 n0 n1 n2 u Q0 Q1 Q2 0) else some ((ccc1 n0 n1 n2 u Q0 Q1 Q2 r2c M start 0 : ℝ) : ℂ)
  | .r Q0, .c Q1, .c Q2 =>
    if r2c < 0 then some (contract3 n0 n1 n2 u P0.val Q1 Q2 0)
    else if r2c = 1 ∨ r2c = 2 then some ((rcc1 n0 n1 n2 u Q0 Q1 Q2 r2c M start 0 : ℝ) : ℂ) else none
  | .c Q0, .r Q1, .c Q2 =>
    if r2c < 0 then some (plain3 n0 n1 n2 u Q0 P1.val Q2 0)
    else if r2c = 0 ∨ r2c = 2 then some ((crc1 n0 n1 n2 u Q0 Q1 Q2 r2c M start 0 : ℝ) : ℂ) else none
  | .c Q0, .c Q1, .r Q2 =>
    if r2c < 0 then some (plain3 n0 n1 n2 u Q0 Q1 P2.val 0)
    else if r2c = 0 ∨ r2c = 1 then some ((ccr1 n0 n1 n2 u Q0 Q1 Q2 r2c M start 0 : ℝ) : ℂ) else none
  | .r _, .r _, .c _ => Option.map (fun x : ℝ => (x : ℂ)) (one1 2 n0 n1 n2 u P0.val P1.val P2.val r2c M start 0)
  | .r _, .c _, .r _ => Option.map (fun x : ℝ => (x : ℂ)) (one1 1 n0 n1 n2 u P0.val P1.val P2.val r2c M start 0)
  | .c _, .r _, .r _ => Option.map (fun x : ℝ => (x : ℂ)) (one1 0 n0 n1 n2 u P0.val P1.val P2.val r2c M start 0)
  | .r _, .r _, .r _ => some (plain3 n0 n1 n2 u P0.val P1.val P2.val 0)

/-! ## Method 0 (low memory) -/

/-- `_evaluate_lm_2D_cc1`, `/repo/shenfun/optimization/cython/evaluate.pyx:578-605`. -/
noncomputable def lmcc1 (n0 n1 : ℕ) (u : ℕ → ℕ → ℂ) (x0 x1 : ℝ) (w0 w1 : ℕ → ℝ) (r2c : ℤ) (M : ℤ) (start : ℕ) (b : ℝ) : ℝ :=
  forN (fun k b => forN (fun l b =>
    let xx := w0 k * x0 + w1 l * x1
    let p := (u k l).re * Real.cos xx - (u k l).im * Real.sin xx
    addR2C p (if r2c = 0 then k + start else l + start) M b) b n1) b n0

/-- `_evaluate_lm_3D_crc1`, `/repo/shenfun/optimization/cython/evaluate.pyx:920-954` (the wavenumber of the third axis is taken from
`w1`); `Q l` is `bases[1].evaluate_basis(x1, l)`. -/
noncomputable def lmcrc1 (n0 n1 n2 : ℕ) (u : ℕ → ℕ → ℕ → ℂ) (x0 x2 : ℝ) (Q : ℕ → ℝ) (w0 w1 _w2 : ℕ → ℝ) (r2c : ℤ) (M : ℤ) (start : ℕ)
    (b : ℝ) : ℝ :=
  forN (fun l b => forN (fun k b => forN (fun m b =>
    let y2 := w0 k * x0 + w1 m * x2
    let p := Q l * ((u k l m).re * Real.cos y2 - (u k l m).im * Real.sin y2)
    addR2C p (if r2c = 0 then k + start else m + start) M b) b n2) b n0) b n1

/-! ## Method 2 (Python), two dimensions -/

/-- The branch of `_eval_python` for two axes of which the second is R2C, `/repo/shenfun/tensorproductspace.py:716-776` with
`flataxes = [0, 1]`: contraction of axis 0, then
`out2 = sum(P.real*out.real - P.imag*out.imag) + sum(conj(P[sp].real*out[sp].real - P[sp].imag*out[sp].imag))` with
`sp = slice(sl, st)`; `off` and `stop` are `local_slice()[axis].start` and `.stop`. -/
def python2 (n0 n1 : ℕ) (u : ℕ → ℕ → ℂ) (P0 P1 : ℕ → ℂ) (N : ℕ) (off stop : ℕ) : ℝ :=
  let out := fun l => ∑ k ∈ Finset.range n0, P0 k * u k l
  let sl := (if off = 0 then 1 else off) - off
  let st := min (lastConj N) stop - off
  let g := fun l => (P1 l).re * (out l).re - (P1 l).im * (out l).im
  ∑ l ∈ Finset.range n1, g l + ∑ l ∈ (Finset.range n1).filter (fun l => sl ≤ l ∧ l < st), g l

/-! ## One dimension -/

/-- `R2C._evaluate_expansion_all` with `kind='vandermonde'` for one-dimensional arrays, `/repo/shenfun/fourier/bases.py:380-388`
(used by `eval` of a one-dimensional space). -/
def r2c1 (N : ℕ) (u P : ℕ → ℂ) : ℝ :=
  let n := N / 2 + 1
  (∑ k ∈ Finset.range n, P k * u k).re +
    if N % 2 = 0 then (starRingEnd ℂ (∑ k ∈ Finset.Ico 1 (n - 1), P k * u k)).re
    else (starRingEnd ℂ (∑ k ∈ Finset.Ico 1 n, P k * u k)).re

end Eval

end Shenfun
