import Verif.Model.SpectralMatrices

/-!
# Hard-coded Chebyshev matrices, `/repo/shenfun/chebyshev/matrices.py`

`tN`, `uN` are the numbers of quadrature points of test and trial space; `h` is the array returned by
`get_norm_sq(test, trial, method)`.  Array slices are written out elementwise with the length of the result; agreement of
the lengths of operands inside one expression is not modelled.  `_keyscale` is 1.
-/

namespace Shenfun

/-- `chebyshev.bases.Orthogonal.l2_norm_sq`, `/repo/shenfun/chebyshev/bases.py:271-277`, and `L2_norm_sq`
(`/repo/shenfun/chebyshev/bases.py:268-269`) through `get_norm_sq`, `/repo/shenfun/spectralbase.py:2344-2368`; `gl` is true
for `method='quadrature'` with Gauss-Lobatto points, `N` the size of the test space. -/
noncomputable def chebNormSq (gl : Bool) (N k : ℕ) : ℝ :=
  if k = 0 ∨ (gl = true ∧ k = N - 1) then Real.pi else Real.pi / 2

/-- `dmax`, `/repo/shenfun/chebyshev/matrices.py:98-100`. -/
def dmax (N M : ℕ) (d : ℤ) : ℕ :=
  ((min N M : ℕ) - |d| + min (max (((M:ℤ) - N) * d.sign) 0) |d|).toNat

namespace ChebMat

open Real

/-- `/repo/shenfun/chebyshev/matrices.py:119-121`. -/
noncomputable def BTT (tN uN : ℕ) (h : ℕ → ℝ) : DMat := [(0, .array (min tN uN) h)]

/-- `/repo/shenfun/chebyshev/matrices.py:238-246`. -/
noncomputable def BSDSD (tN uN : ℕ) (h : ℕ → ℝ) : DMat :=
  [(-2, .scalar (-h 1)), (0, .array (min tN uN - 2) fun k => h k + h (k+2)), (2, .scalar (-h 1))]

/-- `/repo/shenfun/chebyshev/matrices.py:295-308`. -/
noncomputable def BSNSD (tN uN : ℕ) (h : ℕ → ℝ) : DMat :=
  let alpha : ℕ → ℝ := fun k => k / (k + 2)
  [(0, .array (min tN uN - 2) fun k => h k + alpha k ^ 2 * h (k+2)),
   (2, .array (dmax (tN-2) (uN-2) 2) fun k => -alpha k ^ 2 * h (k+2)), (-2, .scalar (-π/2))]

/-- `/repo/shenfun/chebyshev/matrices.py:328-339`. -/
noncomputable def BSDSN (tN uN : ℕ) (h : ℕ → ℝ) : DMat :=
  let alpha : ℕ → ℝ := fun k => k / (k + 2)
  [(0, .array (min tN uN - 2) fun k => h k + alpha k ^ 2 * h (k+2)),
   (-2, .array (dmax (tN-2) (uN-2) (-2)) fun k => -alpha k ^ 2 * h (k+2)), (2, .scalar (-π/2))]

/-- `/repo/shenfun/chebyshev/matrices.py:367-375`. -/
noncomputable def BLDLD (tN uN : ℕ) (h : ℕ → ℝ) : DMat :=
  [(0, .array (min tN uN - 1) fun k => h k + h (k+1)), (1, .scalar (π/2)), (-1, .scalar (π/2))]

/-- `/repo/shenfun/chebyshev/matrices.py:388-401`. -/
noncomputable def BSNSN (tN uN : ℕ) (h : ℕ → ℝ) : DMat :=
  let alpha : ℕ → ℝ := fun k => (k / (k + 2)) ^ 2
  let d2 : DVal := .array (dmax (tN-2) (uN-2) 2) fun k => -alpha k * h (k+2)
  [(0, .array (min tN uN - 2) fun k => h k + alpha k ^ 2 * h (k+2)), (2, d2), (-2, d2)]

/-- `/repo/shenfun/chebyshev/matrices.py:441-451`. -/
noncomputable def BSDT (tN uN : ℕ) (h : ℕ → ℝ) : DMat :=
  [(0, .array (min (tN-2) uN) h), (2, .array (min (dmax (tN-2) uN 2) (min tN uN - 2)) fun k => -h (k+2))]

/-- `/repo/shenfun/chebyshev/matrices.py:465-475`. -/
noncomputable def BTSD (tN uN : ℕ) (h : ℕ → ℝ) : DMat :=
  [(0, .array (min tN (uN-2)) h), (-2, .array (min (dmax tN (uN-2) (-2)) (min tN uN - 2)) fun k => -h (k+2))]

/-- `/repo/shenfun/chebyshev/matrices.py:488-499`; `alpha` is the diagonal `2` of the stencil of the trial space. -/
noncomputable def BTSN (tN uN : ℕ) (h : ℕ → ℝ) : DMat :=
  let alpha : ℕ → ℝ := fun k => -((k / (k + 2)) ^ 2)
  [(0, .array (min tN uN - 2) h), (-2, .array (min (dmax tN (uN-2) (-2)) (min tN uN - 2)) fun k => h (k+2) * alpha k)]

/-- `/repo/shenfun/chebyshev/matrices.py:515-528`; `S` is the stencil matrix of the trial space. -/
noncomputable def BSBSB (tN uN : ℕ) (h : ℕ → ℝ) : DMat :=
  let S2 : ℕ → ℝ := fun n => -(2 * n + 4) / (n + 3)
  let S4 : ℕ → ℝ := fun n => (n + 1) / (n + 3)
  let n := min tN uN
  let d2 : DVal := .array (n - 6) fun k => h (k+2) * S2 k + h (k+4) * S4 k * S2 (k+2)
  let d4 : DVal := .array (n - 8) fun k => h (k+4) * S4 k
  [(0, .array (n - 4) fun k => h k + h (k+2) * S2 k ^ 2 + h (k+4) * S4 k ^ 2), (2, d2), (4, d4), (-2, d2), (-4, d4)]

/-- `/repo/shenfun/chebyshev/matrices.py:583-600`. -/
noncomputable def BSBSD (tN uN : ℕ) (h : ℕ → ℝ) : DMat :=
  let Q := min (uN - 2) (tN - 4)
  let M := uN - 2
  let a : ℕ → ℝ := fun k => 2 * (k + 2) / (k + 3)
  let b : ℕ → ℝ := fun k => (k + 1) / (k + 3)
  [(-2, .scalar (-π/2)), (0, .array Q fun k => h k + a k * π / 2),
   (2, .array (min Q (M-2)) fun k => -(a k * π / 2 + h (k+4) * b k)),
   (4, .array (min Q (M-4)) fun k => b k * h (k+4))]

/-- `/repo/shenfun/chebyshev/matrices.py:641-652`. -/
noncomputable def BSBT (tN uN : ℕ) (h : ℕ → ℝ) : DMat :=
  let Q := min uN (tN - 4)
  [(0, .array Q h), (2, .array (min Q (uN-2)) fun k => -π * (k + 2) / (k + 3)),
   (4, .array (min Q (uN-4)) fun k => h (k+4) * (k + 1) / (k + 3))]

/-- `/repo/shenfun/chebyshev/matrices.py:670-678`. -/
noncomputable def CSDSN (N : ℕ) : DMat :=
  let k : ℕ → ℝ := fun i => i
  [(-1, .array (N-3) fun i => -((k (i+1) - 1) / (k (i+1) + 1)) ^ 2 * (k (i+1) + 1) * π),
   (1, .array (N-3) fun i => (k i + 1) * π)]

/-- `/repo/shenfun/chebyshev/matrices.py:707-715`. -/
noncomputable def CSDSD (N : ℕ) : DMat :=
  let k : ℕ → ℝ := fun i => i
  [(-1, .array (N-3) fun i => -(k (i+1) + 1) * π), (1, .array (N-3) fun i => (k i + 1) * π)]

/-- `/repo/shenfun/chebyshev/matrices.py:755-774`. -/
noncomputable def CSNSD (N : ℕ) : DMat :=
  let k : ℕ → ℝ := fun i => i
  fromkeys2 (-1) (N-1) fun i =>
    if i = -1 then .array (N-3) fun t => -(k (t+1) + 1) * π
    else if i = 1 then .array (N-3) fun t => -(2 - k t ^ 2 / (k t + 2) ^ 2 * (k t + 3)) * π
    else .array (N-2-i.toNat) fun t => -(1 - k t ^ 2 / (k t + 2) ^ 2) * 2 * π

/-- `/repo/shenfun/chebyshev/matrices.py:787-795`: `d[-1]` replaces the value of an existing key. -/
noncomputable def CTSD (N : ℕ) : DMat :=
  let k : ℕ → ℝ := fun i => i
  fromkeys2 (-1) (N-2) fun i => if i = -1 then .array (N-2) fun t => -(k (t+1) + 1) * π else .scalar (-2 * π)

/-- `/repo/shenfun/chebyshev/matrices.py:820-828`. -/
noncomputable def ASBT (tN uN : ℕ) : DMat :=
  let Q := min (tN - 4) uN
  [(2, .array (min Q (uN-2)) fun k => 2 * π * (k + 2) * (k + 1))]

/-- `/repo/shenfun/chebyshev/matrices.py:842-849`. -/
noncomputable def CSDT (N : ℕ) : DMat := [(1, .array (N-2) fun k => π * (k + 1))]

/-- `/repo/shenfun/chebyshev/matrices.py:865-874`. -/
noncomputable def CTT (tN uN : ℕ) : DMat :=
  fromkeys2 1 uN fun i => .array (min tN uN - i.toNat) fun t => π * ((t + i.toNat : ℕ) : ℝ)

/-- `/repo/shenfun/chebyshev/matrices.py:904-913`. -/
noncomputable def CSBSD (N : ℕ) : DMat :=
  let k : ℕ → ℝ := fun i => i
  [(-1, .array (N-5) fun i => -(k (i+1) + 1) * π), (1, .array (N-4) fun i => 2 * (k i + 1) * π),
   (3, .array (N-5) fun i => -(k i + 1) * π)]

/-- `/repo/shenfun/chebyshev/matrices.py:955-964`. -/
noncomputable def CSDSB (N : ℕ) : DMat :=
  let k : ℕ → ℝ := fun i => i
  [(-3, .array (N-5) fun i => (k (i+3) - 2) * (k (i+3) + 1) / k (i+3) * π),
   (-1, .array (N-4) fun i => -2 * (k (i+1) + 1) ^ 2 / (k (i+1) + 2) * π),
   (1, .array (N-5) fun i => (k i + 1) * π)]

/-- `/repo/shenfun/chebyshev/matrices.py:1008-1017`. -/
noncomputable def ASBSB (N : ℕ) : DMat :=
  let k : ℕ → ℝ := fun i => i
  [(-2, .array (N-6) fun i => 2 * (k (i+2) - 1) * (k (i+2) + 2) * π),
   (0, .array (N-4) fun i => -4 * ((k i + 1) * (k i + 2) ^ 2) / (k i + 3) * π),
   (2, .array (N-6) fun i => 2 * (k i + 1) * (k i + 2) * π)]

/-- `/repo/shenfun/chebyshev/matrices.py:1061-1080`. -/
noncomputable def ASDSD (N : ℕ) : DMat :=
  let k : ℕ → ℝ := fun i => i
  fromkeys2 0 (N-2) fun i =>
    if i = 0 then .array (N-2) fun t => -2 * π * (k t + 1) * (k t + 2)
    else if i = 2 then .array (N-4) fun t => -4 * π * (k t + 1)
    else .array (N - (i.toNat + 2)) fun t => -4 * π * (k t + 1)

/-- `/repo/shenfun/chebyshev/matrices.py:1110-1123`. -/
noncomputable def ASNSN (N : ℕ) : DMat :=
  let k : ℕ → ℝ := fun i => i
  fromkeys2 0 (N-2) fun i =>
    if i = 0 then .array (N-2) fun t => -2 * π * k t ^ 2 * (k t + 1) / (k t + 2)
    else .array (N-2-i.toNat) fun t => -4 * π * (k t + i.toNat) ^ 2 * (k t + 1) / (k t + 2) ^ 2

/-- `/repo/shenfun/chebyshev/matrices.py:1178-1188`. -/
noncomputable def ASBSD (tN uN : ℕ) : DMat :=
  let M := uN - 2
  let Q := min M (tN - 4)
  [(0, .array Q fun k => -2 * ((k:ℝ) + 1) * (k + 2) * π), (2, .array (min Q (M-2)) fun k => 2 * ((k:ℝ) + 1) * (k + 2) * π)]

/-- `/repo/shenfun/chebyshev/matrices.py:1205-1214`. -/
noncomputable def ATT (tN uN : ℕ) : DMat :=
  let k : ℕ → ℝ := fun i => i
  fromkeys2 2 uN fun j => .array (min tN uN - j.toNat) fun t => k (t + j.toNat) * (k (t + j.toNat) ^ 2 - k t ^ 2) * π / 2

/-- `/repo/shenfun/chebyshev/matrices.py:1239-1252`. -/
noncomputable def ATSD (N : ℕ) : DMat :=
  let k : ℕ → ℝ := fun i => i
  fromkeys2 0 (N-2) fun j =>
    if j = 0 then .array (N-2) fun t => -π/2 * k (t+2) * (k (t+2) ^ 2 - k t ^ 2)
    else .array (N-2-j.toNat) fun t =>
      (k (t + j.toNat) * (k (t + j.toNat) ^ 2 - k t ^ 2) - k (t + j.toNat + 2) * (k (t + j.toNat + 2) ^ 2 - k t ^ 2)) * π / 2

/-- `/repo/shenfun/chebyshev/matrices.py:1266-1278`. -/
noncomputable def ATSN (N : ℕ) : DMat :=
  let k : ℕ → ℝ := fun i => i
  fromkeys2 0 (N-2) fun j =>
    if j = 0 then .array (N-2) fun t => -k t ^ 2 / (k t + 2) * ((k t + 2) ^ 2 - k t ^ 2) * π / 2
    else .array (N-2-j.toNat) fun t =>
      (k (t + j.toNat) * (k (t + j.toNat) ^ 2 - k t ^ 2) -
        k (t + j.toNat) ^ 2 / (k (t + j.toNat) + 2) * ((k (t + j.toNat) + 2) ^ 2 - k t ^ 2)) * π / 2

open Function in
/-- `/repo/shenfun/chebyshev/matrices.py:1290-1305`.  Division by zero happens only in entries that are overwritten. -/
noncomputable def ACNCN (N : ℕ) : DMat :=
  let k : ℕ → ℝ := fun i => i
  [(-2, .array (N-4) (update (fun i => 2 * π * (k (i+2) - 1) / k (i+2) / (k (i+2) - 2) ^ 2) 0 0)),
   (0, .array (N-2) (update (fun i => if i < 3 then -2 * π / k i ^ 2 * ((k i + 1) / (k i + 2))
      else -2 * π * ((k i - 1) / k i ^ 2 / (k i - 2) + (k i + 1) / k i ^ 2 / (k i + 2))) 0 0)),
   (2, .array (N-4) (update (fun i => 2 * π * (k i + 1) / k i / k (i+2) ^ 2) 0 (-π)))]

/-- `/repo/shenfun/chebyshev/matrices.py:1321-1335`. -/
noncomputable def ASDHH (scaled : Bool) (N : ℕ) (h : ℕ → ℝ) : DMat :=
  let k : ℕ → ℝ := fun i => i
  if scaled then [(0, .array (N-2) fun i => -h i),
    (2, .array (N-4) fun i => π/2 * (k i * k (i+1)) / ((k i + 3) * (k i + 4)))]
  else [(0, .array (N-2) fun i => -h i * k (i+2) * k (i+1)), (2, .array (N-4) fun i => π/2 * k i * k (i+1))]

/-- `/repo/shenfun/chebyshev/matrices.py:1350-1368`. -/
noncomputable def AHHHH (scaled : Bool) (N : ℕ) (h : ℕ → ℝ) : DMat :=
  let k : ℕ → ℝ := fun i => i
  let ck : ℕ → ℝ := fun i => h i * 2 / π
  let dk : ℕ → ℝ := fun i => if i < 2 then 0 else ck i
  let d0 : ℕ → ℝ := fun i => -π/8 * ck i ^ 2 * ((k i + 1) * (k i + 2) + dk i * (k i - 2) * (k i - 1))
  let d2 : ℕ → ℝ := fun i => π/8 * ck i * k i * k (i+1)
  let dm2 : ℕ → ℝ := fun i => π/8 * ck i * k (i+2) * k (i+1)
  if scaled then
    [(0, .array (N-2) fun i => d0 i * (1 / ((k i + 2) ^ 2 * (k i + 1) ^ 2))),
     (2, .array (N-4) fun i => d2 i * (1 / ((k i + 1) * (k i + 2) * (k i + 3) * (k i + 4)))),
     (-2, .array (N-4) fun i => dm2 i * (1 / (k (i+1) * k (i+2) * (k (i+2) + 1) * (k (i+2) + 2))))]
  else [(0, .array (N-2) d0), (2, .array (N-4) d2), (-2, .array (N-4) dm2)]

open Function in
/-- `/repo/shenfun/chebyshev/matrices.py:1382-1391`. -/
noncomputable def ASDMN (N : ℕ) : DMat :=
  let k : ℕ → ℝ := fun i => i
  [(0, .array (N-2) (update (fun _ => -2 * π) 0 0)), (2, .array (N-4) fun i => 2 * π * k (i+1) / k (i+3))]

open Function in
/-- `/repo/shenfun/chebyshev/matrices.py:1408-1423`. -/
noncomputable def ASNCN (N : ℕ) : DMat :=
  let k : ℕ → ℝ := fun i => i
  [(0, .array (N-2) (update (fun i => -2 * π * k (i+1) / k (i+2)) 0 0)),
   (2, .array (N-4) (update (fun i => 2 * π * k i * k (i+1) / k (i+2) ^ 2) 0 (-π)))]

/-- `/repo/shenfun/chebyshev/matrices.py:1444-1459`. -/
noncomputable def SSBSB (N : ℕ) : DMat :=
  let k : ℕ → ℝ := fun i => i
  fromkeys2 0 (N-4) fun j =>
    if j = 0 then .array (N-4) fun t => π * 8 * (k t + 1) ^ 2 * (k t + 2) * (k t + 4)
    else .array (N-4-j.toNat) fun t =>
      8 * (k t + 1) * (k t + 2) * (k t * (k t + 4) + 3 * (k (t + j.toNat) + 2) ^ 2) * π / (k (t + j.toNat) + 3)

end ChebMat

end Shenfun
