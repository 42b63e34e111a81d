import Verif.Model.SpectralMatrices

/-!
# Hard-coded Legendre matrices, `/repo/shenfun/legendre/matrices.py`

Test and trial space have the same number `N` of quadrature points unless two sizes are given.  `h` is the array returned
by `get_norm_sq(test, trial, method)`; `scaled` is `is_scaled()` of the spaces.  Array slices are written out elementwise
with the length of the result; agreement of the lengths of operands inside one expression is not modelled.
`_keyscale` is 1.
-/

namespace Shenfun

/-- `legendre.bases.Orthogonal.l2_norm_sq` and `L2_norm_sq`, `/repo/shenfun/legendre/bases.py:154-166`, through
`get_norm_sq`, `/repo/shenfun/spectralbase.py:2344-2368`; `gl` is true for `method='quadrature'` with Gauss-Lobatto
points, `N` the size of the test space. -/
noncomputable def legNormSq (gl : Bool) (N k : ℕ) : ℝ :=
  if gl = true ∧ k = N - 1 then 2 / ((N:ℝ) - 1) else 2 / (2 * (k:ℝ) + 1)

namespace LegMat

/-- The divisor `sqrt(4k+6)` of scaled basis functions. -/
noncomputable def sq (k : ℕ) : ℝ := Real.sqrt (4 * k + 6)

/-- `/repo/shenfun/legendre/matrices.py:103-107`. -/
noncomputable def BLL (tN uN : ℕ) (h : ℕ → ℝ) : DMat := [(0, .array (min tN uN) h)]

/-- `/repo/shenfun/legendre/matrices.py:121-134`. -/
noncomputable def BSDSD (scaled : Bool) (N : ℕ) (h : ℕ → ℝ) : DMat :=
  let d0 : ℕ → ℝ := fun k => h k + h (k+2)
  let dm2 : ℕ → ℝ := fun k => -h (k+2)
  if scaled then
    let d2 : DVal := .array (N-4) fun k => dm2 k / (sq (k+2) * sq k)
    [(0, .array (N-2) fun k => d0 k / (4 * k + 6)), (-2, d2), (2, d2)]
  else [(0, .array (N-2) d0), (-2, .array (N-4) dm2), (2, .array (N-4) dm2)]

/-- `/repo/shenfun/legendre/matrices.py:149-162`. -/
noncomputable def BSNSN (N : ℕ) (h : ℕ → ℝ) : DMat :=
  let alpha : ℕ → ℝ := fun k => k * (k + 1) / (k + 2) / (k + 3)
  let d2 : DVal := .array (N-4) fun k => -alpha k * h (k+2)
  [(0, .array (N-2) fun k => h k + alpha k ^ 2 * h (k+2)), (2, d2), (-2, d2)]

/-- `/repo/shenfun/legendre/matrices.py:176-189`. -/
noncomputable def BSBSB (N : ℕ) (h : ℕ → ℝ) : DMat :=
  let i : ℕ → ℝ := fun k => k
  let d2 : DVal := .array (N-6) fun k => (-4 * i k - 18) * (2 * i k + 3) * h (k+4) / ((2 * i k + 7) * (2 * i k + 11)) +
    (-4 * i k - 10) * h (k+2) / (2 * i k + 7)
  let d4 : DVal := .array (N-8) fun k => (2 * i k + 3) * h (k+4) / (2 * i k + 7)
  [(0, .array (N-4) fun k => (-4 * i k - 10) ^ 2 * h (k+2) / (2 * i k + 7) ^ 2 +
      (2 * i k + 3) ^ 2 * h (k+4) / (2 * i k + 7) ^ 2 + h k), (2, d2), (4, d4), (-2, d2), (-4, d4)]

/-- `/repo/shenfun/legendre/matrices.py:207-217`; `S0`, `S2` are the diagonals of the stencil matrix. -/
noncomputable def BSDL (S0 S2 : ℕ → ℝ) (N : ℕ) (h : ℕ → ℝ) : DMat :=
  [(0, .array (N-2) fun k => h k * S0 k), (2, .array (N-2) fun k => h (k+2) * S2 k)]

/-- `/repo/shenfun/legendre/matrices.py:232-242`. -/
noncomputable def BLSD (S0 S2 : ℕ → ℝ) (N : ℕ) (h : ℕ → ℝ) : DMat :=
  [(0, .array (N-2) fun k => h k * S0 k), (-2, .array (N-2) fun k => h (k+2) * S2 k)]

/-- `/repo/shenfun/legendre/matrices.py:255-268`. -/
noncomputable def BDNDN (N : ℕ) (h : ℕ → ℝ) : DMat :=
  let i : ℕ → ℝ := fun k => k
  let d1 : DVal := .array (N-3) fun k => (2 * i k + 3) * h (k+1) / (i k ^ 2 + 4 * i k + 4) +
    (2 * i k + 5) * (-i k ^ 2 - 2 * i k - 1) * h (k+2) / ((4 * i k + (i k + 1) ^ 2 + 8) * (i k ^ 2 + 4 * i k + 4))
  let d2 : DVal := .array (N-4) fun k => (-i k ^ 2 - 2 * i k - 1) * h (k+2) / (i k ^ 2 + 4 * i k + 4)
  [(0, .array (N-2) fun k => (2 * i k + 3) ^ 2 * h (k+1) / (i k ^ 2 + 4 * i k + 4) ^ 2 +
      (-i k ^ 2 - 2 * i k - 1) ^ 2 * h (k+2) / (i k ^ 2 + 4 * i k + 4) ^ 2 + h k), (1, d1), (2, d2), (-1, d1), (-2, d2)]

/-- `/repo/shenfun/legendre/matrices.py:282-292`. -/
noncomputable def ASDSD (scaled : Bool) (N : ℕ) : DMat :=
  if scaled then [(0, .scalar 1)] else [(0, .array (N-2) fun k => 4 * k + 6)]

/-- `/repo/shenfun/legendre/matrices.py:306-315`. -/
noncomputable def ASNSN (N : ℕ) : DMat :=
  let alpha : ℕ → ℝ := fun k => k * (k + 1) / (k + 2) / (k + 3)
  [(0, .array (N-2) fun k => 2 / (2 * k + 1) * alpha k * (k + 1/2) * (((k:ℝ) + 2) * (k + 3) - k * (k + 1)))]

/-- `/repo/shenfun/legendre/matrices.py:329-339`. -/
noncomputable def ASBSB (N : ℕ) : DMat :=
  let gk : ℕ → ℝ := fun k => (2 * k + 3) / (2 * k + 7)
  let d2 : DVal := .array (N-6) fun k => -2 * (2 * k + 3)
  [(0, .array (N-4) fun k => 2 * (2 * k + 3) * (1 + gk k)), (2, d2), (-2, d2)]

/-- `/repo/shenfun/legendre/matrices.py:352-359`. -/
noncomputable def ADNDN (N : ℕ) : DMat :=
  [(0, .array (N-2) fun k => (((k:ℝ) + 1) / (k + 2)) ^ 2 * (((k:ℝ) + 2) * (k + 3) - k * (k + 1)))]

/-- `/repo/shenfun/legendre/matrices.py:372-380`. -/
noncomputable def SBFBF (N : ℕ) : DMat :=
  let f4 : ℕ → ℝ := fun k => ((((k:ℝ) + 1) / (k + 3)) * ((k + 2) / (k + 4))) ^ 2 * (2 * k + 3) / (2 * k + 7)
  [(0, .array (N-4) fun k => f4 k * (k + 5/2) * (((k:ℝ) + 4) * (k + 5) - (k + 2) * (k + 3)) *
    (((k:ℝ) + 2) * (k + 3) - k * (k + 1)))]

/-- `/repo/shenfun/legendre/matrices.py:398-413`, derivative on the trial function. -/
noncomputable def ALL (tN uN : ℕ) : DMat :=
  let k : ℕ → ℝ := fun i => i
  fromkeys2 2 uN fun j => .array (min tN uN - j.natAbs) fun t =>
    (k t + 1/2) * (k (t + j.natAbs) * (k (t + j.natAbs) + 1) - k t * (k t + 1)) * 2 / (2 * k t + 1)

/-- `dict.fromkeys(-np.arange(lo, hi, 2), f)`. -/
def fromkeys2neg (lo : ℤ) (hi : ℤ) (f : ℤ → DVal) : DMat :=
  (List.range ((hi - lo + 1) / 2).toNat).map fun t : ℕ => (-(lo + 2 * (t : ℤ)), f (-(lo + 2 * (t : ℤ))))

/-- `/repo/shenfun/legendre/matrices.py:398-413`, derivative on the test function. -/
noncomputable def ALLT (tN uN : ℕ) : DMat :=
  let k : ℕ → ℝ := fun i => i
  fromkeys2neg 2 uN fun j => .array (min tN uN - j.natAbs) fun t =>
    (k t + 1/2) * (k (t + j.natAbs) * (k (t + j.natAbs) + 1) - k t * (k t + 1)) * 2 / (2 * k t + 1)

/-- `/repo/shenfun/legendre/matrices.py:435-442`. -/
noncomputable def SSBSB (tN uN : ℕ) : DMat := [(0, .array (min (tN-4) (uN-4)) fun k => 2 * (2 * k + 3) ^ 2 * (2 * k + 5))]

/-- `/repo/shenfun/legendre/matrices.py:460-469`. -/
noncomputable def CLL (uN : ℕ) : DMat := fromkeys2 1 uN fun _ => .scalar 2

/-- `/repo/shenfun/legendre/matrices.py:505-515`. -/
noncomputable def CLLT (uN : ℕ) : DMat := fromkeys2neg 1 uN fun _ => .scalar 2

/-- `/repo/shenfun/legendre/matrices.py:529-538`. -/
noncomputable def CLSD (scaled : Bool) (N : ℕ) : DMat :=
  if scaled then [(-1, .array (N-2) fun k => -2 / sq k)] else [(-1, .scalar (-2))]

/-- `/repo/shenfun/legendre/matrices.py:553-562`. -/
noncomputable def CSDL (scaled : Bool) (N : ℕ) : DMat :=
  if scaled then [(1, .array (N-2) fun k => -2 / sq k)] else [(1, .scalar (-2))]

/-- `/repo/shenfun/legendre/matrices.py:576-586`. -/
noncomputable def CSDSD (scaled : Bool) (N : ℕ) : DMat :=
  if scaled then [(-1, .array (N-3) fun k => -2 / sq k), (1, .array (N-3) fun k => 2 / sq k)]
  else [(-1, .scalar (-2)), (1, .scalar 2)]

/-- `/repo/shenfun/legendre/matrices.py:599-609`, not in the dictionary of matrices. -/
noncomputable def CSDSDT (scaled : Bool) (N : ℕ) : DMat :=
  if scaled then [(-1, .array (N-3) fun k => 2 / sq k), (1, .array (N-3) fun k => -2 / sq k)]
  else [(-1, .scalar 2), (1, .scalar (-2))]

/-- `/repo/shenfun/legendre/matrices.py:622-630`, not in the dictionary of matrices. -/
noncomputable def ASDSDrp1 (N : ℕ) : DMat :=
  [(0, .array (N-2) fun k => 4 * k + 6), (1, .array (N-3) fun k => 2 * k + 4), (-1, .array (N-3) fun k => 2 * k + 4)]

/-- `/repo/shenfun/legendre/matrices.py:644-650`. -/
noncomputable def ASDSD2rp1 (N : ℕ) : DMat :=
  [(0, .array (N-2) fun k => -(4 * k + 6)), (1, .array (N-3) fun k => -(2 * k + 6)), (-1, .array (N-3) fun k => -(2 * k + 2))]

/-- `/repo/shenfun/legendre/matrices.py:664-670`. -/
noncomputable def ASDSD2Trp1 (N : ℕ) : DMat :=
  [(0, .array (N-2) fun k => -(4 * k + 6)), (-1, .array (N-3) fun k => -(2 * k + 6)), (1, .array (N-3) fun k => -(2 * k + 2))]

/-- `/repo/shenfun/legendre/matrices.py:683-689`. -/
noncomputable def AUDUDrp1 (N : ℕ) : DMat := [(0, .array (N-1) fun k => 2 * k + 2)]

/-- `/repo/shenfun/legendre/matrices.py:702-710`. -/
noncomputable def AUDUDrp1s (N : ℕ) : DMat :=
  let d1 : DVal := .array (N-2) fun k => 2 * ((k + 1 : ℕ) : ℝ) * (((k + 1 : ℕ) : ℝ) + 1) / (2 * ((k + 1 : ℕ) : ℝ) + 1)
  [(0, .array (N-1) fun k => 2 * ((k:ℝ) + 1) ^ 2 * (1 / (2 * k + 1) + 1 / (2 * k + 3))), (1, d1), (-1, d1)]

/-- `/repo/shenfun/legendre/matrices.py:723-731`. -/
noncomputable def GUDUDrp1s (N : ℕ) : DMat :=
  let k : ℕ → ℝ := fun i => i
  [(0, .array (N-1) fun i => -2 * (k i + 1) * ((k i - 1) / (2 * k i + 1) + (k i + 3) / (2 * k i + 3))),
   (1, .array (N-2) fun i => -2 * (k (i+1) + 1) * (k (i+1) + 2) / (2 * k (i+1) + 1)),
   (-1, .array (N-2) fun i => -2 * k i * (k i + 1) / (2 * k i + 3))]

/-- `/repo/shenfun/legendre/matrices.py:785-793`, not in the dictionary of matrices. -/
noncomputable def CUDUDrp1 (N : ℕ) : DMat :=
  let k : ℕ → ℝ := fun i => i
  [(0, .array (N-1) fun i => -2 * (k i + 1) / (2 * k i + 1) + 2 * (k i + 1) / (2 * k i + 3)),
   (1, .array (N-2) fun i => 2 * (k (i+1) + 1) / (2 * k (i+1) + 1)),
   (-1, .array (N-2) fun i => -2 * (k i + 1) / (2 * k i + 3))]

/-- `/repo/shenfun/legendre/matrices.py:807-814`. -/
noncomputable def BUDUD (N : ℕ) (h : ℕ → ℝ) : DMat :=
  let d1 : DVal := .array (N-2) fun k => -h (k+1)
  [(0, .array (N-1) fun k => h k + h (k+1)), (-1, d1), (1, d1)]

/-- `/repo/shenfun/legendre/matrices.py:827-834`. -/
noncomputable def BLDLD (N : ℕ) (h : ℕ → ℝ) : DMat :=
  let d1 : DVal := .array (N-2) fun k => h (k+1)
  [(0, .array (N-1) fun k => h k + h (k+1)), (-1, d1), (1, d1)]

end LegMat

end Shenfun
