import Verif.Model.CythonLA

/-!
# `apply_mask`

`/repo/shenfun/utilities/__init__.py:440-444` (Python), `/repo/shenfun/optimization/cython/applymask.pyx` (compiled, default).
Arrays are C-contiguous in memory `ℤ → K`; the compiled loops have no bounds checks.  Exact arithmetic.
-/

namespace Shenfun

namespace Mask

open Cy (Mem)

variable {K : Type*} [Field K]

/-- Nested loops `for i in range(s[0]): for j in range(s[1]): …`, the body gets the list of loop variables (notation for the nests
in `/repo/shenfun/optimization/cython/applymask.pyx:58-165`). -/
def loops : List ℕ → (List ℕ → Mem K → Mem K) → Mem K → Mem K
  | [], body, m => body [] m
  | s :: rest, body, m => forN (fun i m => loops rest (fun idx => body (i :: idx)) m) m s

/-- Row-major offset of `u[idx]` in a C-contiguous array of the given shape (no bounds check,
`/repo/shenfun/optimization/cython/applymask.pyx:1-2`). -/
def offset : List ℕ → List ℕ → ℕ
  | _ :: shape, i :: idx => i * shape.prod + offset shape idx
  | _, _ => 0

/-- `u[idx] = 0` for the array of shape `sh` at address `p` (the assignments in
`/repo/shenfun/optimization/cython/applymask.pyx:62-165`). -/
def clear (sh : List ℕ) (p : ℤ) (idx : List ℕ) (m : Mem K) : Mem K := Function.update m (p + offset sh idx) 0

/-- `np.broadcast_to(mask, sh).copy()` (`/repo/shenfun/optimization/cython/applymask.pyx:18, 30, 42`): the element at offset `a`
of the copy, where `mask idx` is the element of the original array of shape `ms` (`ms[i]` is `1` or `sh[i]`).  The copy is a fresh
array: reading behind its end gives `junk`. -/
def bcast : List ℕ → List ℕ → List ℕ
  | d :: ms, i :: idx => (if d = 1 then 0 else i) :: bcast ms idx
  | _, _ => []

/-- The index with the given row-major offset (inverse of `offset`), used to say what the flat copy of the broadcast mask contains
(`/repo/shenfun/optimization/cython/applymask.pyx:18, 30, 42`). -/
def unflat : List ℕ → ℕ → List ℕ
  | [], _ => []
  | _ :: sh, a => a / sh.prod :: unflat sh (a % sh.prod)

/-- The flat storage of the broadcast copy, `/repo/shenfun/optimization/cython/applymask.pyx:18, 30, 42`. -/
def copyMask (ms sh : List ℕ) (mask : List ℕ → ℤ) (junk : ℕ → ℤ) (a : ℕ) : ℤ :=
  if a < sh.prod then mask (bcast ms (unflat sh a)) else junk a

/-- `apply_mask_1D` … `apply_mask_4D`, `/repo/shenfun/optimization/cython/applymask.pyx:57-89`; `sh` is the shape of `u` and of the
copied mask, `mk` the flat storage of the copy. -/
def same (sh : List ℕ) (mk : ℕ → ℤ) (p : ℤ) (m : Mem K) : Mem K :=
  loops sh (fun idx m => if mk (offset sh idx) = 0 then clear sh p idx m else m) m

/-- `apply_bmask_1D` … `apply_bmask_4D`, `/repo/shenfun/optimization/cython/applymask.pyx:91-127`, `u` of shape `u0 :: sh`.  (The
1D version loops over `u.shape[1]`, the others over `mask.shape`: the same numbers.) -/
def bmask (u0 : ℕ) (sh : List ℕ) (mk : ℕ → ℤ) (p : ℤ) (m : Mem K) : Mem K :=
  loops sh (fun idx m => if mk (offset sh idx) = 0 then
    loops [u0] (fun c m => clear (u0 :: sh) p (c ++ idx) m) m else m) m

/-- `apply_b2mask_2D` and `apply_b2mask_4D`, `/repo/shenfun/optimization/cython/applymask.pyx:138-146, 159-169`, `u` of shape
`u0 :: u1 :: sh`; `outer` and `inner` are the bounds of the loops over the mask and over the components. -/
def b2loops (outer inner : List ℕ) (u0 u1 : ℕ) (sh : List ℕ) (mk : ℕ → ℤ) (p : ℤ) (m : Mem K) : Mem K :=
  loops outer (fun idx m => if mk (offset sh idx) = 0 then
    loops inner (fun c m => clear (u0 :: u1 :: sh) p (c ++ idx) m) m else m) m

/-- `apply_b2mask_1D` (`/repo/shenfun/optimization/cython/applymask.pyx:129-136`, outer loop over `u.shape[1]`), `apply_b2mask_2D`,
`apply_b2mask_3D` (`:148-157`, inner loop over `u.shape[2]`), `apply_b2mask_4D`. -/
def b2mask (u0 u1 : ℕ) (sh : List ℕ) (mk : ℕ → ℤ) (p : ℤ) (m : Mem K) : Mem K :=
  match sh with
  | [_] => b2loops [u1] [u0, u1] u0 u1 sh mk p m
  | [s, _, _] => b2loops sh [u0, s] u0 u1 sh mk p m
  | _ => b2loops sh [u0, u1] u0 u1 sh mk p m

/-- `u_hat *= mask`, the fallback (`/repo/shenfun/optimization/cython/applymask.pyx:28, 40, 52, 54`) and the whole Python version
(`/repo/shenfun/utilities/__init__.py:441-444`): NumPy multiplies every element of `u` (shape `ush`) by the element of the mask
broadcast to the trailing axes. -/
def times (ush ms : List ℕ) (mask : List ℕ → ℤ) (p : ℤ) (m : Mem K) : Mem K := fun a =>
  if p ≤ a ∧ a < p + ush.prod then
    m a * (mask (bcast ms ((unflat ush (a - p).toNat).drop (ush.length - ms.length))) : ℤ) else m a

/-- `apply_mask`, `/repo/shenfun/optimization/cython/applymask.pyx:15-55`, for a mask of shape `ms` and `u_hat` of shape `ush`. -/
def apply (ush ms : List ℕ) (mask : List ℕ → ℤ) (junk : ℕ → ℤ) (p : ℤ) (m : Mem K) : Mem K :=
  if 1 ≤ ms.length ∧ ms.length ≤ 4 then
    if ush.length = ms.length then same ush (copyMask ms ush mask junk) p m
    else match ush with
      | u0 :: sh =>
        if sh.length = ms.length then bmask u0 sh (copyMask ms sh mask junk) p m
        else match sh with
          | u1 :: sh =>
            if sh.length = ms.length then b2mask u0 u1 sh (copyMask ms sh mask junk) p m
            else times ush ms mask p m
          | [] => times ush ms mask p m
      | [] => times ush ms mask p m
  else times ush ms mask p m

end Mask

end Shenfun
