import Verif.Model.SpectralMatrices
import Verif.Model.Utilities
import Mathlib.Analysis.SpecialFunctions.Trigonometric.Basic

/-!
# Fourier matrices, `/repo/shenfun/fourier/matrices.py`

Exact arithmetic.  The dictionaries of the hard-coded matrices have real values.
-/

namespace Shenfun.Fourier

open Complex

/-- `C2C.wavenumbers(bcast=False, scaled=False, eliminate_highest_freq=False)`,
`/repo/shenfun/fourier/bases.py:536-545`: `np.fft.fftfreq(N, 1/N)` puts `0, …, (N-1)//2` first and then
`-(N//2), …, -1`. -/
def wavenumbersC2C (N i : ℕ) : ℤ := if i < (N - 1) / 2 + 1 then i else -((N / 2 : ℕ) : ℤ) + (i - ((N - 1) / 2 + 1) : ℕ)

/-- `R2C.wavenumbers`, `/repo/shenfun/fourier/bases.py:334-342`: `np.fft.rfftfreq(N, 1/N)`, `N//2+1` values. -/
def wavenumbersR2C (_N i : ℕ) : ℤ := i

/-- One assignment of a Python dictionary display: a repeated key keeps its place and gets the new value. -/
def dictSet (d : DMat) (e : ℤ × DVal) : DMat :=
  if d.any (fun f => f.1 = e.1) then d.map (fun f => if f.1 = e.1 then (f.1, e.2) else f) else d ++ [e]

/-- A Python dictionary display `{k1: v1, k2: v2, …}`. -/
def dictOf (l : DMat) : DMat := l.foldl dictSet []

/-- `Acos2mat.assemble`, `/repo/shenfun/fourier/matrices.py:29-38`. -/
noncomputable def acos2mat (N : ℕ) : DMat :=
  let k : ℕ → ℝ := fun i => (wavenumbersC2C N i : ℝ)
  dictOf [(0, .array N fun t => -0.5 * k t ^ 2),
    (2, .array (N - 2) fun t => -0.25 * k (2 + t) ^ 2),
    (-2, .array (N - 2) fun t => -0.25 * k t ^ 2),
    ((N : ℤ) - 2, .array (min N 2) fun t => -0.25 * k (N - 2 + t) ^ 2),
    (-((N : ℤ) - 2), .array (min N 2) fun t => -0.25 * k t ^ 2)]

/-- `Acosmat.assemble`, `/repo/shenfun/fourier/matrices.py:51-58`. -/
noncomputable def acosmat (N : ℕ) : DMat :=
  let k : ℕ → ℝ := fun i => (wavenumbersC2C N i : ℝ)
  dictOf [(1, .array (N - 1) fun t => -0.5 * k (1 + t) ^ 2),
    (-1, .array (N - 1) fun t => -0.5 * k t ^ 2),
    ((N : ℤ) - 1, .scalar (-0.5 * k (N - 1) ^ 2))]

/-- `Csinmat.assemble`, `/repo/shenfun/fourier/matrices.py:71-78`. -/
noncomputable def csinmat (N : ℕ) : DMat :=
  let k : ℕ → ℝ := fun i => (wavenumbersC2C N i : ℝ)
  dictOf [(1, .array (N - 1) fun t => -0.5 * k (1 + t)),
    (-1, .array (N - 1) fun t => 0.5 * k t),
    ((N : ℤ) - 1, .scalar (-0.5))]

/-- `Csincosmat.assemble`, `/repo/shenfun/fourier/matrices.py:91-99`. -/
noncomputable def csincosmat (N : ℕ) : DMat :=
  let k : ℕ → ℝ := fun i => (wavenumbersC2C N i : ℝ)
  dictOf [(2, .array (N - 2) fun t => -0.25 * k (2 + t)),
    (-2, .array (N - 2) fun t => 0.25 * k t),
    ((N : ℤ) - 2, .array (min N 2) fun t => 0.25 * k (N - 2 + t)),
    (-((N : ℤ) - 2), .array (min N 2) fun t => -0.25 * k t)]

/-- `Bcos2mat.assemble`, `/repo/shenfun/fourier/matrices.py:111-119`. -/
noncomputable def bcos2mat (N : ℕ) : DMat :=
  dictOf [(0, .scalar 0.5), (2, .scalar 0.25), (-2, .scalar 0.25), ((N : ℤ) - 2, .scalar 0.25),
    (-((N : ℤ) - 2), .scalar 0.25)]

/-- `Bcosmat.assemble`, `/repo/shenfun/fourier/matrices.py:132-139`. -/
noncomputable def bcosmat (N : ℕ) : DMat :=
  dictOf [(1, .scalar 0.5), (-1, .scalar 0.5), ((N : ℤ) - 1, .scalar 0.5), (-((N : ℤ) - 1), .scalar 0.5)]

/-- The reference domain `(0, 2π)`, `/repo/shenfun/fourier/bases.py:154-155`. -/
noncomputable def refDomain : Domain ℝ := ⟨0, 2 * Real.pi⟩

/-- The scale put on every matrix by `SpectralMatrix.__init__`, `/repo/shenfun/matrixbase.py:690-692`: `t` and `r` are
the numbers of derivatives of test and trial function. -/
noncomputable def matScale (dom : Domain ℝ) (t r : ℕ) : ℝ :=
  if domainFactor dom refDomain ≠ 1 then domainFactor dom refDomain ^ ((t + r : ℤ) - 1) else 1

/-- A hard-coded matrix on the domain `dom`: `SpectralMatrix.__init__`, `/repo/shenfun/matrixbase.py:623-696`. -/
noncomputable def onDomain (dom : Domain ℝ) (t r N : ℕ) (d : DMat) : SM ℝ :=
  SM.new (d.map fun e => (e.1, e.2.get)) N N (matScale dom t r)

/-- `FourierMatrix.assemble` for a constant measure, `/repo/shenfun/fourier/matrices.py:152-177`: main diagonal at the
position with wavenumber `k`. -/
noncomputable def fourierAssemble (dom : Domain ℝ) (t r : ℕ) (k : ℤ) : ℂ :=
  if r + t > 0 then
    let val := (I * k) ^ r * (-I * k) ^ t
    let val := if (r + t) % 2 = 0 then (val.re : ℂ) else val
    val * ((domainFactor dom refDomain : ℝ) : ℂ)
  else ((domainFactor dom refDomain : ℝ) : ℂ)

/-- Entry `(k, k)` of `FourierMatrix` (all others are zero), with the scale `measure` of
`/repo/shenfun/matrixbase.py:631-633`; `/repo/shenfun/matrixbase.py:690-694`. -/
noncomputable def fourierMatrix (dom : Domain ℝ) (t r : ℕ) (measure : ℝ) (k : ℤ) : ℂ :=
  (measure : ℂ) * ((matScale dom t r : ℝ) : ℂ) * fourierAssemble dom t r k

/-- `1./self[0]` at one position: `none` is numpy's `inf`; `/repo/shenfun/fourier/matrices.py:189-190`. -/
noncomputable def recip (a : ℂ) : Option ℂ := if a = 0 then none else some (1 / a)

/-- `FourierMatrix.solve` for `measure == 1`, `/repo/shenfun/fourier/matrices.py:179-204`: `n` is the shape of the
matrix, `isArray` tells whether `self[0]` is an array, `scale` is `self.scale`.  The result is `none` where numpy
leaves an infinite factor. -/
noncomputable def fourierSolve (n : ℕ) (isArray : Bool) (a : ℕ → ℂ) (scale : ℂ) (b : ℕ → ℂ) : ℕ → Option ℂ :=
  let d : ℕ → Option ℂ := fun i => recip (a i)
  let d := if isArray then
      let d := if d 0 = none then Function.update d 0 (some 0) else d
      if d (n / 2) = none then Function.update d (n / 2) (some 0) else d
    else d
  fun i => (d i).map fun di => b i * di / scale

end Shenfun.Fourier
