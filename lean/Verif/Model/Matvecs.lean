import Verif.Model.ChebSolvers
import Verif.Model.LegMatrices

/-!
# Optimised matrix-vector products of the hard-coded matrices

`matvec` methods of `/repo/shenfun/chebyshev/matrices.py`, `/repo/shenfun/legendre/matrices.py` and of the solvers in
`/repo/shenfun/chebyshev/la.py`, with the compiled kernels of `/repo/shenfun/optimization/cython/Matvec.pyx`.

One line of the arrays along the multiplied axis is modelled: the kernels are called once per line
(`IterAllButAxis`, `/repo/shenfun/optimization/cython/Matvec.pyx:17-24`) and the numpy expressions broadcast over the other
axes.  Lines are real (all matrix entries are real).  An access outside an array is not represented; the theorems carry the
smallest size for which there is none.  `np.moveaxis` is covered by C35.
-/

namespace Shenfun

/-- A `SpectralMatrix`: the dictionary `d` returned by `assemble`, the factor `ks` multiplied into the diagonals by
`incorporate_scale` (`/repo/shenfun/matrixbase.py:396-405`; the attribute `_keyscale` for callable diagonals, the stored
arrays otherwise) and the attribute `scale`. -/
structure SpecMat where
  d : DMat
  ks : ℝ
  scale : ℝ

namespace SpecMat

/-- `self[key]`, `/repo/shenfun/matrixbase.py:182-186`. -/
def get (A : SpecMat) (key : ℤ) (t : ℕ) : ℝ := A.ks * A.d.at key t

/-- `scale_array`, `/repo/shenfun/matrixbase.py:391-394`. -/
noncomputable def scaleArray (c : ℕ → ℝ) (sc : ℝ) : ℕ → ℝ :=
  open Classical in if 1e-8 < |sc - 1| then fun i => c i * sc else c

/-- Assignment to a slice, `c[lo:hi] = f` (numpy). -/
def setSlice (lo hi : ℕ) (f : ℕ → ℝ) (c : ℕ → ℝ) : ℕ → ℝ := fun i => if lo ≤ i ∧ i < hi then f (i - lo) else c i

/-- `c[lo:hi] += f` (numpy). -/
def addSlice (lo hi : ℕ) (f : ℕ → ℝ) (c : ℕ → ℝ) : ℕ → ℝ := fun i => if lo ≤ i ∧ i < hi then c i + f (i - lo) else c i

/-- `for i in range(lo, hi): b[i] = f(i)`, the loops of `/repo/shenfun/optimization/cython/Matvec.pyx` whose right-hand
side does not read `b`. -/
def fill (lo hi : ℕ) (f : ℕ → ℝ) (b : ℕ → ℝ) : ℕ → ℝ := forN (fun q b => Function.update b (lo + q) (f (lo + q))) b (hi - lo)

/-! ## Banded kernels -/

/-- `CDN_matvec_ptr` and `CDD_matvec_ptr`, `/repo/shenfun/optimization/cython/Matvec.pyx:40-56, 111-127`. -/
def kernelCDN (Nd : ℕ) (ld ud v b : ℕ → ℝ) : ℕ → ℝ :=
  let b := Function.update b 0 (ud 0 * v 1)
  let b := Function.update b (Nd-1) (ld (Nd-2) * v (Nd-2))
  fill 1 (Nd-1) (fun i => ud i * v (i+1) + ld (i-1) * v (i-1)) b

/-- `BDN_matvec_ptr`, `/repo/shenfun/optimization/cython/Matvec.pyx:76-93`. -/
def kernelBDN (M : ℕ) (ld dd : ℕ → ℝ) (ud : ℝ) (v b : ℕ → ℝ) : ℕ → ℝ :=
  let b := Function.update b 0 (ud * v 2 + dd 0 * v 0)
  let b := Function.update b 1 (ud * v 3 + dd 1 * v 1)
  let b := Function.update b (M-2) (ld (M-4) * v (M-4) + dd (M-2) * v (M-2))
  let b := Function.update b (M-1) (ld (M-3) * v (M-3) + dd (M-1) * v (M-1))
  fill 2 (M-2) (fun i => ud * v (i+2) + dd i * v i + ld (i-2) * v (i-2)) b

/-- `Tridiagonal_matvec_ptr`, `/repo/shenfun/optimization/cython/Matvec.pyx:431-451`. -/
def kernelTridiagonal (M : ℕ) (ld dd ud v b : ℕ → ℝ) : ℕ → ℝ :=
  let b := Function.update b 0 (dd 0 * v 0 + ud 0 * v 2)
  let b := Function.update b 1 (dd 1 * v 1 + ud 1 * v 3)
  let b := fill 2 (M-2) (fun i => ld (i-2) * v (i-2) + dd i * v i + ud i * v (i+2)) b
  let b := Function.update b (M-2) (ld (M-2-2) * v (M-2-2) + dd (M-2) * v (M-2))
  Function.update b (M-1) (ld (M-1-2) * v (M-1-2) + dd (M-1) * v (M-1))

/-- `Pentadiagonal_matvec_ptr`, `/repo/shenfun/optimization/cython/Matvec.pyx:473-502`. -/
def kernelPentadiagonal (M : ℕ) (ldd ld dd ud udd v b : ℕ → ℝ) : ℕ → ℝ :=
  let b := Function.update b 0 (dd 0 * v 0 + ud 0 * v 2 + udd 0 * v 4)
  let b := Function.update b 1 (dd 1 * v 1 + ud 1 * v 3 + udd 1 * v 5)
  let b := Function.update b 2 (ld 0 * v 0 + dd 2 * v 2 + ud 2 * v 4 + udd 2 * v 6)
  let b := Function.update b 3 (ld 1 * v 1 + dd 3 * v 3 + ud 3 * v 5 + udd 3 * v 7)
  let b := fill 4 (M-4) (fun i =>
    ldd (i-4) * v (i-4) + ld (i-2) * v (i-2) + dd i * v i + ud i * v (i+2) + udd i * v (i+4)) b
  let four := fun i => ldd (i-4) * v (i-4) + ld (i-2) * v (i-2) + dd i * v i + ud i * v (i+2)
  let three := fun i => ldd (i-4) * v (i-4) + ld (i-2) * v (i-2) + dd i * v i
  let b := Function.update b (M-4) (four (M-4))
  let b := Function.update b (M-3) (four (M-3))
  let b := Function.update b (M-2) (three (M-2))
  Function.update b (M-1) (three (M-1))

/-- `CBD_matvec_ptr`, `/repo/shenfun/optimization/cython/Matvec.pyx:522-540`; `M` is the length of `udd`. -/
def kernelCBD (M : ℕ) (ld ud udd v b : ℕ → ℝ) : ℕ → ℝ :=
  let b := Function.update b 0 (ud 0 * v 1 + udd 0 * v 3)
  let b := fill 1 M (fun i => ld (i-1) * v (i-1) + ud i * v (i+1) + udd i * v (i+3)) b
  Function.update b M (ld (M-1) * v (M-1) + ud M * v (M+1))

/-- `CDB_matvec_ptr`, `/repo/shenfun/optimization/cython/Matvec.pyx:560-582`; `M` is the length of `ud`. -/
def kernelCDB (M : ℕ) (lld ld ud v b : ℕ → ℝ) : ℕ → ℝ :=
  let b := Function.update b 0 (ud 0 * v 1)
  let b := fill 1 3 (fun k => ld (k-1) * v (k-1) + ud k * v (k+1)) b
  let b := fill 3 M (fun k => lld (k-3) * v (k-3) + ld (k-1) * v (k-1) + ud k * v (k+1)) b
  let b := fill M (M+2) (fun k => lld (k-3) * v (k-3) + ld (k-1) * v (k-1)) b
  Function.update b (M+2) (lld (M-1) * v (M-1))

/-- `BBD_matvec_ptr`, `/repo/shenfun/optimization/cython/Matvec.pyx:603-624`; `M` is the length of `uud`. -/
def kernelBBD (M : ℕ) (ld : ℝ) (dd ud uud v b : ℕ → ℝ) : ℕ → ℝ :=
  let b := Function.update b 0 (dd 0 * v 0 + ud 0 * v 2 + uud 0 * v 4)
  let b := Function.update b 1 (dd 1 * v 1 + ud 1 * v 3 + uud 1 * v 5)
  let b := fill 2 M (fun k => ld * v (k-2) + dd k * v k + ud k * v (k+2) + uud k * v (k+4)) b
  fill M (M+2) (fun k => ld * v (k-2) + dd k * v k + ud k * v (k+2)) b

/-! ## Kernels with running sums -/

/-- Two running sums over the even and two over the odd rows, and the output line. -/
structure PSums where
  e1 : ℝ
  e2 : ℝ
  o1 : ℝ
  o2 : ℝ
  b : ℕ → ℝ

/-- Body of a loop `for k in range(m-1, -1, -1)` that adds `t1 j`, `t2 j` with `j = k+off` to the running sums of its
parity and then sets `b[k]` from the row and the two sums (the loops of
`/repo/shenfun/optimization/cython/Matvec.pyx:158-171, 214-223, 253-263, 296-306, 331-338, 409-416`).  The loops test the
parity of `k` or of `j`; that only names the two sums. -/
def sumStep (m off : ℕ) (t1 t2 : ℕ → ℝ) (out : ℕ → ℝ → ℝ → ℝ) (q : ℕ) (s : PSums) : PSums :=
  let k := m - 1 - q
  let j := k + off
  if k % 2 = 0 then
    let s1 := s.e1 + t1 j
    let s2 := s.e2 + t2 j
    ⟨s1, s2, s.o1, s.o2, Function.update s.b k (out k s1 s2)⟩
  else
    let s1 := s.o1 + t1 j
    let s2 := s.o2 + t2 j
    ⟨s.e1, s.e2, s1, s2, Function.update s.b k (out k s1 s2)⟩

/-- The first `q` iterations of that loop. -/
def sumLoop (m off : ℕ) (t1 t2 : ℕ → ℝ) (out : ℕ → ℝ → ℝ → ℝ) (b : ℕ → ℝ) (q : ℕ) : PSums :=
  forN (sumStep m off t1 t2 out) ⟨0, 0, 0, 0, b⟩ q

/-- `SBB_matvec_ptr`, `/repo/shenfun/optimization/cython/Matvec.pyx:141-175`. -/
noncomputable def kernelSBB (M : ℕ) (dd v b : ℕ → ℝ) : ℕ → ℝ :=
  let b := Function.update b (M-1) (dd (M-1) * v (M-1))
  let b := Function.update b (M-2) (dd (M-2) * v (M-2))
  (sumLoop (M-2) 2 (fun j => v j / (j + 3)) (fun j => (j + 2) * (j + 2) * (v j / (j + 3)))
    (fun k s1 s2 => dd k * v k + k * dd k / (k + 1) * s1 + 24 * (k + 1) * (k + 2) * Real.pi * s2) b (M-2)).b

/-- `ADD_matvec_ptr`, `/repo/shenfun/optimization/cython/Matvec.pyx:193-221`. -/
noncomputable def kernelADD (M : ℕ) (dd v b : ℕ → ℝ) : ℕ → ℝ :=
  let b := Function.update b (M-1) (dd (M-1) * v (M-1))
  let b := Function.update b (M-2) (dd (M-2) * v (M-2))
  (sumLoop (M-2) 2 v (fun _ => 0) (fun k s1 _ => dd k * v k + -4 * (k + 1) * Real.pi * s1) b (M-2)).b

/-- `ATT_matvec_ptr`, `/repo/shenfun/optimization/cython/Matvec.pyx:235-263`. -/
noncomputable def kernelATT (N : ℕ) (v b : ℕ → ℝ) : ℕ → ℝ :=
  let b := Function.update b (N-1) 0
  let b := Function.update b (N-2) 0
  (sumLoop (N-2) 2 (fun j => j * v j) (fun j => (j:ℝ) ^ 3 * v j)
    (fun k s1 s3 => Real.pi / 2 * s3 - Real.pi / 2 * (k:ℝ) ^ 2 * s1) b (N-2)).b

/-- `GLL_matvec_ptr`, `/repo/shenfun/optimization/cython/Matvec.pyx:277-306` (its only caller,
`/repo/shenfun/legendre/matrices.py:415-424`, is commented out). -/
noncomputable def kernelGLL (N : ℕ) (v b : ℕ → ℝ) : ℕ → ℝ :=
  let b := Function.update b (N-1) 0
  let b := Function.update b (N-2) 0
  let p0 : ℕ → ℝ := fun k => 2 * (k + 0.5) / (2 * k + 1)
  (sumLoop (N-2) 2 (fun j => j * (j + 1) * v j) v (fun k s1 s3 => p0 k * s1 - p0 k * k * (k + 1) * s3) b (N-2)).b

/-- `CLL_matvec_ptr`, `/repo/shenfun/optimization/cython/Matvec.pyx:321-338`. -/
def kernelCLL (N : ℕ) (v b : ℕ → ℝ) : ℕ → ℝ :=
  let b := Function.update b (N-1) 0
  (sumLoop (N-1) 1 v (fun _ => 0) (fun _ s _ => 2 * s) b (N-1)).b

/-- `CTSD_matvec_ptr`, `/repo/shenfun/optimization/cython/Matvec.pyx:350-379`; `N` is the length of the line. -/
noncomputable def kernelCTSD (N : ℕ) (v b : ℕ → ℝ) : ℕ → ℝ :=
  let b := Function.update b (N-1) 0
  let b := Function.update b (N-2) (-((N:ℝ) - 2 + 1) * Real.pi * v (N-3))
  let b := Function.update b (N-3) (-((N:ℝ) - 3 + 1) * Real.pi * v (N-4))
  (sumLoop (N-3) 1 v (fun _ => 0)
    (fun i s _ => (if 0 < i then -((i:ℝ) + 1) * Real.pi * v (i-1) else 0) - s * (2 * Real.pi)) b (N-3)).b

/-- `CTT_matvec_ptr`, `/repo/shenfun/optimization/cython/Matvec.pyx:393-416`. -/
noncomputable def kernelCTT (N : ℕ) (v b : ℕ → ℝ) : ℕ → ℝ :=
  let b := Function.update b (N-1) 0
  (sumLoop (N-1) 1 (fun j => j * v j) (fun _ => 0) (fun _ s _ => Real.pi * s) b (N-1)).b

/-! ## `matvec` methods -/

/-- The output line after `c.fill(0)`. -/
def zeros : ℕ → ℝ := fun _ => 0

/-- `BTTmat.matvec(format='self')`, `/repo/shenfun/chebyshev/matrices.py:128-135`, for equal sizes `N`. -/
noncomputable def matvecBTT (N : ℕ) (A : SpecMat) (v : ℕ → ℝ) : ℕ → ℝ :=
  scaleArray (setSlice 0 N (fun t => A.get 0 t * v t) zeros) A.scale

/-- `BSDSDmat.matvec(format='cython')`, `/repo/shenfun/chebyshev/matrices.py:259-263`; `M` rows and columns. -/
noncomputable def matvecBSDSD (M : ℕ) (A : SpecMat) (v : ℕ → ℝ) : ℕ → ℝ :=
  scaleArray (kernelTridiagonal M (A.get (-2)) (A.get 0) (A.get (-2)) v zeros) A.scale

/-- `BSDSDmat.matvec(format='self')`, `/repo/shenfun/chebyshev/matrices.py:264-275`. -/
noncomputable def matvecBSDSDself (M : ℕ) (A : SpecMat) (v : ℕ → ℝ) : ℕ → ℝ :=
  let c := setSlice 0 (M-2) (fun t => A.get (-2) 0 * v (t+2)) zeros
  let c := addSlice 0 M (fun t => A.get 0 t * v t) c
  let c := addSlice 2 M (fun t => A.get 2 0 * v t) c
  scaleArray c A.scale

/-- `BSDSNmat.matvec(format='cython')` for three-dimensional arrays, `/repo/shenfun/chebyshev/matrices.py:341-349`. -/
noncomputable def matvecBSDSN (M : ℕ) (A : SpecMat) (v : ℕ → ℝ) : ℕ → ℝ :=
  scaleArray (kernelBDN M (A.get (-2)) (A.get 0) (A.get 2 0) v zeros) A.scale

/-- `BSNSNmat.matvec`, `/repo/shenfun/chebyshev/matrices.py:406-427`; `N = test.N-2`; `c` is the output array as passed in
(this method does not clear it). -/
def matvecBSNSN (N : ℕ) (A : SpecMat) (v c : ℕ → ℝ) : ℕ → ℝ :=
  let d0 := A.get 0
  let d2 := A.get 2
  let c := Function.update c 0 (d0 0 * v 0 + d2 0 * v 2)
  let c := Function.update c 1 (d0 1 * v 1 + d2 1 * v 3)
  let c := fill 2 (N-2) (fun k => d2 (k-2) * v (k-2) + d0 k * v k + d2 k * v (k+2)) c
  let c := Function.update c (N-2) (d2 (N-4) * v (N-4) + d0 (N-2) * v (N-2))
  let c := Function.update c (N-1) (d2 (N-3) * v (N-3) + d0 (N-1) * v (N-1))
  fun i => c i * A.scale

/-- `BSBSBmat.matvec(format='cython')` for three-dimensional arrays, `/repo/shenfun/chebyshev/matrices.py:557-560`. -/
noncomputable def matvecBSBSB (M : ℕ) (A : SpecMat) (v : ℕ → ℝ) : ℕ → ℝ :=
  scaleArray (kernelPentadiagonal M (A.get (-4)) (A.get (-2)) (A.get 0) (A.get 2) (A.get 4) v zeros) A.scale

/-- `BSBSBmat.matvec(format='self')`, `/repo/shenfun/chebyshev/matrices.py:540-555`. -/
noncomputable def matvecBSBSBself (N : ℕ) (A : SpecMat) (v : ℕ → ℝ) : ℕ → ℝ :=
  let c := setSlice 0 N (fun t => A.get 0 t * v t) zeros
  let c := addSlice 0 (N-2) (fun t => A.get 2 t * v (t+2)) c
  let c := addSlice 0 (N-4) (fun t => A.get 4 t * v (t+4)) c
  let c := addSlice 2 N (fun t => A.get (-2) t * v t) c
  let c := addSlice 4 N (fun t => A.get (-4) t * v t) c
  scaleArray c A.scale

/-- `BSBSDmat.matvec(format='cython')`, `/repo/shenfun/chebyshev/matrices.py:622-624`; `M` is the length of `self[4]`. -/
noncomputable def matvecBSBSD (M : ℕ) (A : SpecMat) (v : ℕ → ℝ) : ℕ → ℝ :=
  scaleArray (kernelBBD M (A.get (-2) 0) (A.get 0) (A.get 2) (A.get 4) v zeros) A.scale

/-- `BSBSDmat.matvec(format='self')`, `/repo/shenfun/chebyshev/matrices.py:605-620`; `N` rows. -/
noncomputable def matvecBSBSDself (N : ℕ) (A : SpecMat) (v : ℕ → ℝ) : ℕ → ℝ :=
  let c := setSlice 0 N (fun t => A.get 0 t * v t) zeros
  let c := addSlice 0 N (fun t => A.get 2 t * v (t+2)) c
  let c := addSlice 0 (N-2) (fun t => A.get 4 t * v (t+4)) c
  let c := addSlice 2 N (fun t => A.get (-2) 0 * v t) c
  scaleArray c A.scale

/-- `CSDSNmat.matvec` and `CSDSDmat.matvec`, format `cython`, `/repo/shenfun/chebyshev/matrices.py:680-686, 733-735`; `Nd` is
the length of `self[1]` plus one. -/
noncomputable def matvecCSD (Nd : ℕ) (A : SpecMat) (v : ℕ → ℝ) : ℕ → ℝ :=
  scaleArray (kernelCDN Nd (A.get (-1)) (A.get 1) v zeros) A.scale

/-- `CSDSDmat.matvec(format='self')`, `/repo/shenfun/chebyshev/matrices.py:717-732`. -/
noncomputable def matvecCSDSDself (N : ℕ) (A : SpecMat) (v : ℕ → ℝ) : ℕ → ℝ :=
  let c := setSlice 0 (N-1) (fun t => A.get 1 t * v (t+1)) zeros
  let c := addSlice 1 N (fun t => A.get (-1) t * v t) c
  scaleArray c A.scale

/-- `CTSDmat.matvec`, `/repo/shenfun/chebyshev/matrices.py:797-806`; the kernel does not read the stored diagonals. -/
noncomputable def matvecCTSD (N : ℕ) (A : SpecMat) (v : ℕ → ℝ) : ℕ → ℝ := scaleArray (kernelCTSD N v zeros) A.scale

/-- `CTTmat.matvec`, `/repo/shenfun/chebyshev/matrices.py:877-886`. -/
noncomputable def matvecCTT (N : ℕ) (A : SpecMat) (v : ℕ → ℝ) : ℕ → ℝ :=
  scaleArray (kernelCTT N v zeros) (A.scale * A.ks)

/-- `CSBSDmat.matvec(format='cython')`, `/repo/shenfun/chebyshev/matrices.py:930-932`. -/
noncomputable def matvecCSBSD (M : ℕ) (A : SpecMat) (v : ℕ → ℝ) : ℕ → ℝ :=
  scaleArray (kernelCBD M (A.get (-1)) (A.get 1) (A.get 3) v zeros) A.scale

/-- `CSBSDmat.matvec(format='self')`, `/repo/shenfun/chebyshev/matrices.py:915-929`; `N × M` is the shape. -/
noncomputable def matvecCSBSDself (N : ℕ) (A : SpecMat) (v : ℕ → ℝ) : ℕ → ℝ :=
  let c := setSlice 1 N (fun t => A.get (-1) t * v t) zeros
  let c := addSlice 0 N (fun t => A.get 1 t * v (t+1)) c
  let c := addSlice 0 (N-1) (fun t => A.get 3 t * v (t+3)) c
  scaleArray c A.scale

/-- `CSDSBmat.matvec(format='cython')`, `/repo/shenfun/chebyshev/matrices.py:984-986`. -/
noncomputable def matvecCSDSB (M : ℕ) (A : SpecMat) (v : ℕ → ℝ) : ℕ → ℝ :=
  scaleArray (kernelCDB M (A.get (-3)) (A.get (-1)) (A.get 1) v zeros) A.scale

/-- `CSDSBmat.matvec(format='self')`, `/repo/shenfun/chebyshev/matrices.py:966-982`; `N` rows. -/
noncomputable def matvecCSDSBself (N : ℕ) (A : SpecMat) (v : ℕ → ℝ) : ℕ → ℝ :=
  let c := setSlice 3 N (fun t => A.get (-3) t * v t) zeros
  let c := addSlice 1 (N-1) (fun t => A.get (-1) t * v t) c
  let c := addSlice 0 (N-3) (fun t => A.get 1 t * v (t+1)) c
  scaleArray c A.scale

/-- `ASBSBmat.matvec(format='cython')`, `/repo/shenfun/chebyshev/matrices.py:1037-1039`. -/
noncomputable def matvecASBSB (M : ℕ) (A : SpecMat) (v : ℕ → ℝ) : ℕ → ℝ :=
  scaleArray (kernelTridiagonal M (A.get (-2)) (A.get 0) (A.get 2) v zeros) A.scale

/-- `ASBSBmat.matvec(format='self')`, `/repo/shenfun/chebyshev/matrices.py:1019-1035`. -/
noncomputable def matvecASBSBself (N : ℕ) (A : SpecMat) (v : ℕ → ℝ) : ℕ → ℝ :=
  let c := setSlice 0 N (fun t => A.get 0 t * v t) zeros
  let c := addSlice 0 (N-2) (fun t => A.get 2 t * v (t+2)) c
  let c := addSlice 2 N (fun t => A.get (-2) t * v t) c
  scaleArray c A.scale

/-- `ASDSDmat.matvec`, `/repo/shenfun/chebyshev/matrices.py:1084-1093`. -/
noncomputable def matvecASDSD (M : ℕ) (A : SpecMat) (v : ℕ → ℝ) : ℕ → ℝ :=
  scaleArray (kernelADD M (fun k => A.get 0 k / A.ks) v zeros) (A.scale * A.ks)

/-- `ATTmat.matvec`, `/repo/shenfun/chebyshev/matrices.py:1217-1226`. -/
noncomputable def matvecATT (N : ℕ) (A : SpecMat) (v : ℕ → ℝ) : ℕ → ℝ :=
  scaleArray (kernelATT N v zeros) (A.scale * A.ks)

/-- `SSBSBmat.matvec`, `/repo/shenfun/chebyshev/matrices.py:1461-1471`. -/
noncomputable def matvecSSBSB (M : ℕ) (A : SpecMat) (v : ℕ → ℝ) : ℕ → ℝ :=
  scaleArray (kernelSBB M (fun k => A.get 0 k / A.ks) v zeros) (A.scale * A.ks)

/-- `ASNSNmat.matvec` without numba, `/repo/shenfun/chebyshev/matrices.py:1135-1167`; `N = test.N-2`, `c` the array passed
in (it is not cleared).  The last statement multiplies by `scale`, which is already part of `d0` and `d2`. -/
noncomputable def matvecASNSN (N : ℕ) (A : SpecMat) (v c : ℕ → ℝ) : ℕ → ℝ :=
  let vc : ℕ → ℝ := fun k => v k * (k:ℝ) ^ 2
  let d0 : ℕ → ℝ := fun k => -2 * Real.pi * (k + 1) / (k + 2) * A.scale * A.ks
  let d2 : ℕ → ℝ := fun k => -4 * Real.pi * (k + 1) / ((k:ℝ) + 2) ^ 2 * A.scale * A.ks
  let c := Function.update c (N-1) (d0 (N-1) * vc (N-1))
  let c := Function.update c (N-2) (d0 (N-2) * vc (N-2))
  let c := (sumLoop (N-2) 2 vc (fun _ => 0) (fun k s _ => d0 k * vc k + s * d2 k) c (N-2)).b
  fun i => c i * A.scale

/-- `ANN_matvec1D`, `/repo/shenfun/optimization/numba/helmholtz.py:448-463`, called with `A[0]`, `A[2]`, `A.scale`
(`/repo/shenfun/optimization/numba/helmholtz.py:487-492`). -/
noncomputable def matvecASNSNnumba (N : ℕ) (A : SpecMat) (v c : ℕ → ℝ) : ℕ → ℝ :=
  let d0 := A.get 0
  let d2 := A.get 2
  let c := Function.update c (N-1) (d0 (N-1) * v (N-1))
  let c := Function.update c (N-2) (d0 (N-2) * v (N-2))
  let c := (sumLoop (N-2) 2 (fun j => v j * (j:ℝ) ^ 2) (fun _ => 0)
    (fun k s _ => d0 k * v k + s * d2 k / ((k:ℝ) + 2) ^ 2) c (N-2)).b
  open Classical in if A.scale ≠ 1 then fun i => c i / A.scale else c

/-- `CLLmat.matvec(format='cython')`, `/repo/shenfun/legendre/matrices.py:486-488`. -/
noncomputable def matvecCLL (N : ℕ) (A : SpecMat) (v : ℕ → ℝ) : ℕ → ℝ :=
  scaleArray (kernelCLL N v zeros) (A.scale * A.ks)

/-- `cumsum`, element `t` of the cumulative sum of `x` (numpy). -/
def cumsum (x : ℕ → ℝ) : ℕ → ℝ := fun t => ((List.range (t+1)).map x).sum

/-- `CLLmat.matvec(format='self')`, `/repo/shenfun/legendre/matrices.py:471-484`: the slice `[-a::-2]` or `[-a:0:-2]` of an
array of length `N` visits `N-a, N-a-2, ...`; the assigned slice holds the indices down to 0, the read one those down to 1. -/
noncomputable def matvecCLLself (N : ℕ) (A : SpecMat) (v : ℕ → ℝ) : ℕ → ℝ :=
  let ve := cumsum fun t => v (N - 2 - 2 * t)
  let vo := cumsum fun t => v (N - 1 - 2 * t)
  let c : ℕ → ℝ := fun i => if i + 3 ≤ N ∧ (N - 3 - i) % 2 = 0 then ve ((N - 3 - i) / 2) * 2 else zeros i
  let c : ℕ → ℝ := fun i => if i + 2 ≤ N ∧ (N - 2 - i) % 2 = 0 then vo ((N - 2 - i) / 2) * 2 else c i
  scaleArray c (A.scale * A.ks)

/-! ## Matrix-vector products of the solvers -/

/-- `Helmholtz_matvec_ptr`, `/repo/shenfun/optimization/cython/Matvec.pyx:660-701`
(`/repo/shenfun/optimization/numba/helmholtz.py:219-243`). -/
noncomputable def kernelHelmholtz (M : ℕ) (alf bet : ℝ) (dd ud bd v b : ℕ → ℝ) : ℕ → ℝ :=
  let h := Real.pi / 2
  let b := Function.update b (M-1) ((dd (M-1) * alf + bd (M-1) * bet) * v (M-1) - h * bet * v (M-3))
  let b := Function.update b (M-2) ((dd (M-2) * alf + bd (M-2) * bet) * v (M-2) - h * bet * v (M-4))
  -- `for k in range(M-3, 1, -1)`: the last two of the `M-2` rows are left out
  let s := sumLoop (M-2) 2 v (fun _ => 0)
    (fun k s _ => (dd k * alf + bd k * bet) * v k - h * bet * (v (k-2) + v (k+2)) + ud k * alf * s) b (M-4)
  let s1 := s.o1 + v 3
  let s2 := s.e1 + v 2
  let b := Function.update s.b 1 ((dd 1 * alf + bd 1 * bet) * v 1 - h * bet * v 3 + ud 1 * alf * s1)
  Function.update b 0 ((dd 0 * alf + bd 0 * bet) * v 0 - h * bet * v 2 + ud 0 * alf * s2)

/-- `Helmholtz.matvec` for Dirichlet spaces, `/repo/shenfun/chebyshev/la.py:331-334`, without boundary matrices. -/
noncomputable def helmholtzMatvec (M : ℕ) (A B : SpecMat) (alf bet : ℝ) (v : ℕ → ℝ) : ℕ → ℝ :=
  kernelHelmholtz M alf bet (A.get 0) (A.get 2) (B.get 0) v zeros

/-- `Helmholtz_Neumann_matvec_ptr`, `/repo/shenfun/optimization/cython/Matvec.pyx:728-771` with `cyth` true;
`Helmholtz_Neumann_matvec1D`, `/repo/shenfun/optimization/numba/helmholtz.py:286-312` with `cyth` false.  They differ in the
factor of `v[k-2]` in the last two rows. -/
noncomputable def kernelHelmholtzNeumann (cyth : Bool) (M : ℕ) (alf bet : ℝ) (dd ud bl bd bu v b : ℕ → ℝ) : ℕ → ℝ :=
  let w : ℕ → ℝ := fun k => v k * (k:ℝ) ^ 2
  let last : ℕ → ℝ := fun k => (dd k * alf + bd k * bet) * v k * (k:ℝ) ^ 2 +
    bl (k-2) * bet * v (k-2) * (if cyth then (k:ℝ) ^ 2 else ((k-2 : ℕ):ℝ) ^ 2)
  let b := Function.update b (M-1) (last (M-1))
  let b := Function.update b (M-2) (last (M-2))
  let s := sumLoop (M-2) 2 w (fun _ => 0)
    (fun k s _ => (dd k * alf + bd k * bet) * w k + bet * (bl (k-2) * w (k-2) + bu k * w (k+2)) + ud k * alf * s) b (M-4)
  let s1 := s.o1 + w 3
  let s2 := s.e1 + w 2
  let b := Function.update s.b 1 ((dd 1 * alf + bd 1 * bet) * w 1 + bet * (bu 1 * w 3) + ud 1 * alf * s1)
  let b := Function.update b 0 ((dd 0 * alf + bd 0 * bet) * w 0 + bet * (bu 0 * w 2) + ud 0 * alf * s2)
  let b := Function.update b 0 (b 0 + bd 0 * v 0 * bet)
  Function.update b 2 (b 2 + bl 0 * v 0 * bet)

/-- `Helmholtz_Neumann_matvec`, `/repo/shenfun/optimization/cython/Matvec.pyx:773-809` (`cyth` true: `j2` is an integer
array, so that `j2[:] = 1/j2` truncates) and `/repo/shenfun/optimization/numba/helmholtz.py:372-395` (`cyth` false). -/
noncomputable def helmholtzNeumannMatvec (cyth : Bool) (M : ℕ) (A B : SpecMat) (alf bet : ℝ) (v : ℕ → ℝ) : ℕ → ℝ :=
  let inv : ℕ → ℝ := fun k => if k = 0 then 1 else if cyth then ((1 / k ^ 2 : ℕ) : ℝ) else 1 / (k:ℝ) ^ 2
  kernelHelmholtzNeumann cyth M alf bet (fun k => A.get 0 k * (if k = 0 then 0 else inv k)) (fun k => A.get 2 k * inv (k+2))
    (fun k => B.get (-2) k * inv k) (fun k => B.get 0 k * inv k) (fun k => B.get 2 k * inv (k+2)) v zeros

/-- `Biharmonic_matvec_ptr`, `/repo/shenfun/optimization/cython/Matvec.pyx:823-905`
(`/repo/shenfun/optimization/numba/biharmonic.py:376-438`), with the diagonals passed by `Biharmonic.matvec`,
`/repo/shenfun/chebyshev/la.py:552-558`. -/
noncomputable def biharmonicMatvec (M : ℕ) (S A B : SpecMat) (a0 alf bet : ℝ) (v : ℕ → ℝ) : ℕ → ℝ :=
  let dd : ℕ → ℝ := fun i => a0 * S.get 0 i + alf * A.get 0 i + bet * B.get 0 i
  let ld : ℕ → ℝ := fun i => alf * A.get (-2) i + bet * B.get (-2) i
  let ldd : ℕ → ℝ := fun i => bet * B.get (-4) i
  let ud : ℕ → ℝ := fun i => a0 * S.get 2 i + alf * A.get 2 i + bet * B.get 2 i
  let udd : ℕ → ℝ := fun i => a0 * S.get 4 i + bet * B.get 4 i
  let three : ℕ → ℝ := fun i => ldd (i-4) * v (i-4) + ld (i-2) * v (i-2) + dd i * v i
  let b := Function.update zeros (M-1) (three (M-1))
  let b := Function.update b (M-2) (three (M-2))
  let b := Function.update b (M-3) (three (M-3) + ud (M-3) * v (M-3+2))
  let b := Function.update b (M-4) (three (M-4) + ud (M-4) * v (M-4+2))
  let b := Function.update b (M-5) (three (M-5) + ud (M-5) * v (M-5+2) + udd (M-5) * v (M-5+4))
  let b := Function.update b (M-6) (three (M-6) + ud (M-6) * v (M-6+2) + udd (M-6) * v (M-6+4))
  (sumLoop (M-6) 6 (fun j => v j / (j + 3)) (fun j => (j + 2) * (j + 2) * (v j / (j + 3)))
    (fun k s1 s2 => (k * S.get 0 k / (k + 1) * s1 + 24 * (k + 1) * (k + 2) * Real.pi * s2) * a0 +
      (if 3 < k then ldd (k-4) * v (k-4) + ld (k-2) * v (k-2) + dd k * v k + ud k * v (k+2) + udd k * v (k+4)
       else if 1 < k then ld (k-2) * v (k-2) + dd k * v k + ud k * v (k+2) + udd k * v (k+4)
       else dd k * v k + ud k * v (k+2) + udd k * v (k+4))) b (M-6)).b

/-! ## Matrices with callable diagonals -/

/-- A stored diagonal: a function of the key that multiplies with `_keyscale` when it is looked up, or an array. -/
inductive Diag where
  | fn (f : ℕ → ℝ)
  | arr (a : ℕ → ℝ)

/-- A `SpectralMatrix` as a dictionary from keys to diagonals (a partial function: the order of the keys plays no role for
the operations below), its `_keyscale` (`none` when the attribute does not exist) and its `scale`. -/
structure KMat where
  store : ℤ → Option Diag
  ks : Option ℝ
  scale : ℝ

namespace KMat

/-- `__getitem__`, `/repo/shenfun/matrixbase.py:182-186`. -/
def val (A : KMat) : Diag → ℕ → ℝ
  | .fn f => fun t => A.ks.getD 1 * f t
  | .arr a => a

/-- `incorporate_scale`, `/repo/shenfun/matrixbase.py:396-405`.  (Without `_keyscale` all diagonals are arrays.) -/
noncomputable def incorporateScale (A : KMat) : KMat :=
  open Classical in
  if |A.scale - 1| < 1e-8 then A
  else match A.ks with
    | some k => { A with ks := some (k * A.scale), scale := 1 }
    | none => { A with store := fun key => (A.store key).map fun e => .arr fun t => A.val e t * A.scale, scale := 1 }

/-- `__iadd__`, `/repo/shenfun/matrixbase.py:289-311`: the sum of two values is stored as an array.  (A value of `d` is
stored as the array it evaluates to.) -/
noncomputable def iadd (A d : KMat) : KMat :=
  open Classical in
  if |d.scale| < 1e-16 then A
  else if |A.scale| < 1e-16 then { A with store := fun key => (d.store key).map fun e => .arr (d.val e), scale := d.scale }
  else
    let A := A.incorporateScale
    let d := d.incorporateScale
    { A with store := fun key => match d.store key with
        | none => A.store key
        | some e => some (.arr (match A.store key with
          | none => d.val e
          | some a => fun t => A.val a t + d.val e t)) }

/-- `__imul__`, `/repo/shenfun/matrixbase.py:216-220`. -/
def imul (A : KMat) (y : ℝ) : KMat := { A with scale := A.scale * y }

/-- `ASDSDmat.matvec`, `/repo/shenfun/chebyshev/matrices.py:1084-1093`, of a matrix of that class whatever its dictionary
holds now. -/
noncomputable def matvecASDSD (M : ℕ) (A : KMat) (v : ℕ → ℝ) : ℕ → ℝ :=
  let d0 : ℕ → ℝ := match A.store 0 with
    | some e => A.val e
    | none => fun _ => 0
  scaleArray (kernelADD M (fun k => d0 k / A.ks.getD 1) v zeros) (A.scale * A.ks.getD 1)

/-- The matrix as `assemble` returns it with callable diagonals. -/
def ofCallable (d : DMat) : KMat :=
  { store := fun key => (d.find? fun e => e.1 == key).map fun e => .fn e.2.get, ks := some 1, scale := 1 }

/-- The matrix as `assemble` returns it with arrays. -/
def ofArrays (d : DMat) : KMat :=
  { store := fun key => (d.find? fun e => e.1 == key).map fun e => .arr e.2.get, ks := none, scale := 1 }

end KMat

end SpecMat

end Shenfun
