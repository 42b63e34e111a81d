import Verif.Model.Py
import Mathlib.Algebra.BigOperators.Group.Finset.Basic
import Mathlib.Data.Real.Basic
import Mathlib.Order.Interval.Finset.Nat

/-!
# Domain maps and utilities

`/repo/shenfun/spectralbase.py:658-700, 873-887`, `/repo/shenfun/fourier/__init__.py:7-93`,
`/repo/shenfun/utilities/__init__.py`.
-/

namespace Shenfun

/-! ## Domain maps -/

section Domain

variable {K : Type*} [Field K] [LinearOrder K] [IsStrictOrderedRing K]

/-- A one-dimensional domain (`sympy` interval given by its end points). -/
structure Domain (K : Type*) where
  lower : K
  upper : K
deriving DecidableEq

/-- `SpectralBase.domain_factor`, `/repo/shenfun/spectralbase.py:873-887`. -/
def domainFactor (dom ref : Domain K) : K :=
  let L := dom.upper - dom.lower
  let R := ref.upper - ref.lower
  if |L - R| < 1 / 10 ^ 12 then 1 else R / L

/-- `SpectralBase.map_reference_domain`, `/repo/shenfun/spectralbase.py:658-673` (both branches compute
the same; floating point conversion is not modelled). -/
def mapReferenceDomain [DecidableEq K] (dom ref : Domain K) (x : K) : K :=
  if dom = ref then x else ref.lower + (x - dom.lower) * domainFactor dom ref

/-- `SpectralBase.map_true_domain`, `/repo/shenfun/spectralbase.py:675-689`. -/
def mapTrueDomain [DecidableEq K] (dom ref : Domain K) (x : K) : K :=
  if dom = ref then x else dom.lower + (x - ref.lower) / domainFactor dom ref

end Domain

/-! ## `outer` and `cross` at one point of the mesh -/

section Products

variable {K : Type*} [CommRing K]

/-- `outer2D`, `/repo/shenfun/utilities/__init__.py:234-242`; `c` is the previous content of the output. -/
def outer2D (a b c : ℕ → K) (symmetric : Bool) : ℕ → K :=
  let c := Function.update c 0 (a 0 * b 0)
  let c := Function.update c 1 (a 0 * b 1)
  let c := if symmetric then Function.update c 2 (c 1) else Function.update c 2 (a 1 * b 0)
  Function.update c 3 (a 1 * b 1)

/-- `outer3D`, `/repo/shenfun/utilities/__init__.py:244-260`. -/
def outer3D (a b c : ℕ → K) (symmetric : Bool) : ℕ → K :=
  let c := Function.update c 0 (a 0 * b 0)
  let c := Function.update c 1 (a 0 * b 1)
  let c := Function.update c 2 (a 0 * b 2)
  let c := if symmetric then
      let c := Function.update c 3 (c 1)
      let c := Function.update c 6 (c 2)
      Function.update c 7 (c 5)
    else
      let c := Function.update c 3 (a 1 * b 0)
      let c := Function.update c 6 (a 2 * b 0)
      Function.update c 7 (a 2 * b 1)
  let c := Function.update c 4 (a 1 * b 1)
  let c := Function.update c 5 (a 1 * b 2)
  Function.update c 8 (a 2 * b 2)

/-- `outer`, `/repo/shenfun/utilities/__init__.py:212-232`: `n` is the number of components, `same` is the
result of `a is b`.  With other than 2 or 3 components the output is left unchanged. -/
def outer (n : ℕ) (a b c : ℕ → K) (same : Bool) : ℕ → K :=
  if n = 2 then outer2D a b c same else if n = 3 then outer3D a b c same else c

/-- Cython `outer2D`, `/repo/shenfun/optimization/cython/outer.pyx:13-28`. -/
def outer2DCython (a b c : ℕ → K) (symmetric : Bool) : ℕ → K :=
  if symmetric then
    let c := Function.update c 0 (a 0 ^ 2)
    let c := Function.update c 1 (a 0 * a 1)
    let c := Function.update c 2 (c 1)
    Function.update c 3 (a 1 ^ 2)
  else
    let c := Function.update c 0 (a 0 * b 0)
    let c := Function.update c 1 (a 0 * b 1)
    let c := Function.update c 2 (a 1 * b 0)
    Function.update c 3 (a 1 * b 1)

/-- Cython `outer3D`, `/repo/shenfun/optimization/cython/outer.pyx:31-59`. -/
def outer3DCython (a b c : ℕ → K) (symmetric : Bool) : ℕ → K :=
  if symmetric then
    let c := Function.update c 0 (a 0 ^ 2)
    let c := Function.update c 1 (a 0 * a 1)
    let c := Function.update c 2 (a 0 * a 2)
    let c := Function.update c 3 (c 1)
    let c := Function.update c 4 (a 1 ^ 2)
    let c := Function.update c 5 (a 1 * a 2)
    let c := Function.update c 6 (c 2)
    let c := Function.update c 7 (c 5)
    Function.update c 8 (a 2 ^ 2)
  else
    let c := Function.update c 0 (a 0 * b 0)
    let c := Function.update c 1 (a 0 * b 1)
    let c := Function.update c 2 (a 0 * b 2)
    let c := Function.update c 3 (a 1 * b 0)
    let c := Function.update c 4 (a 1 * b 1)
    let c := Function.update c 5 (a 1 * b 2)
    let c := Function.update c 6 (a 2 * b 0)
    let c := Function.update c 7 (a 2 * b 1)
    Function.update c 8 (a 2 * b 2)

/-- `cross2D`, `/repo/shenfun/utilities/__init__.py:198-200`: `c[:]` is every component of the output. -/
def cross2D (a b : ℕ → K) : ℕ → K := fun _ => a 0 * b 1 - a 1 * b 0

/-- `cross3D`, `/repo/shenfun/utilities/__init__.py:202-206`; `c` is the previous content of the output. -/
def cross3D (c a b : ℕ → K) : ℕ → K :=
  let c := Function.update c 0 (a 1 * b 2 - a 2 * b 1)
  let c := Function.update c 1 (a 2 * b 0 - a 0 * b 2)
  Function.update c 2 (a 0 * b 1 - a 1 * b 0)

/-- `cross`, `/repo/shenfun/utilities/__init__.py:177-196`: chosen by the number of dimensions of the array
(one for the components plus those of the mesh), not by the number of components. -/
def cross (ndim : ℕ) (c a b : ℕ → K) : ℕ → K :=
  if ndim = 3 then cross2D a b else if ndim = 4 then cross3D c a b else cross3D c a b

end Products

/-! ## `energy_fourier` -/

section Energy

/-- The part of `energy_fourier` for a distributed `R2C` axis on one process,
`/repo/shenfun/fourier/__init__.py:66-88` (lines 52-64 are the case of one process): `e k` is the sum of
`|u|²` over all other axes at wavenumber `k` of the `R2C` axis, and the process owns wavenumbers
`start ≤ k < stop` (at least one) of `n = N/2+1`.  Index `0` is `start`, index `-1` is `stop-1`, slice
`1:-1` is `start+1 ≤ k < stop-1`. -/
noncomputable def energyLocal (N : ℕ) (e : ℕ → ℝ) (c : ℕ × ℕ) : ℝ :=
  let start := c.1
  let stop := c.2
  if N % 2 = 0 then
    let r := 2 * ∑ k ∈ Finset.Ico (start + 1) (stop - 1), e k
    let r := if start = 0 then r + e start else r + 2 * e start
    if stop = N / 2 + 1 then r + e (stop - 1) else r + 2 * e (stop - 1)
  else
    let r := 2 * ∑ k ∈ Finset.Ico (start + 1) stop, e k
    if start = 0 then r + e start else r + 2 * e start

/-- `allreduce`, `/repo/shenfun/fourier/__init__.py:93`. -/
noncomputable def energyR2C (N : ℕ) (e : ℕ → ℝ) (chunks : List (ℕ × ℕ)) : ℝ :=
  (chunks.map (energyLocal N e)).sum

/-- The one-dimensional case without communicator, `/repo/shenfun/fourier/__init__.py:25-38`; the array has
`n = N/2+1` entries and the branch is taken on the parity of `n`. -/
noncomputable def energyR2C1D (N : ℕ) (e : ℕ → ℝ) : ℝ :=
  let n := N / 2 + 1
  if n % 2 = 0 then 2 * ∑ k ∈ Finset.Ico 1 (n - 1), e k + e 0 + e (n - 1)
  else 2 * ∑ k ∈ Finset.Ico 1 n, e k + e 0

end Energy

/-! ## `wrap_periodic` -/

/-- A Numpy array: its shape and its entries by multi-index. -/
structure NdArray (α : Type*) where
  shape : List ℕ
  get : List ℕ → α

namespace NdArray

variable {α : Type*}

/-- `np.vstack([x, x[0]])`, `/repo/shenfun/utilities/__init__.py:587`: `x[0]` has one dimension less; Numpy
makes a row of it only if it has one dimension (or none, and then the row of `x` itself has to have length
one), otherwise the dimensions do not match and an exception is raised. -/
def vstackFirst (x : NdArray α) : Except String (NdArray α) :=
  match x.shape with
  | [1] => .ok ⟨[2, 1], fun _ => x.get [0]⟩
  | [n, m] => if n = 0 then .error "IndexError" else
      .ok ⟨[n + 1, m], fun i => match i with
        | [i, j] => if i < n then x.get [i, j] else x.get [0, j]
        | i => x.get i⟩
  | _ => .error "ValueError"

/-- `np.hstack([x, x[:, 0][:, None]])`, `/repo/shenfun/utilities/__init__.py:589`. -/
def hstackFirst (x : NdArray α) : Except String (NdArray α) :=
  match x.shape with
  | n :: m :: r => if m = 0 then .error "IndexError" else
      .ok ⟨n :: (m + 1) :: r, fun i => match i with
        | i :: j :: k => if j < m then x.get (i :: j :: k) else x.get (i :: 0 :: k)
        | i => x.get i⟩
  | _ => .error "IndexError"

/-- `np.concatenate([x, x[:, :, 0][:, :, None]], axis=2)`, `/repo/shenfun/utilities/__init__.py:591`. -/
def dstackFirst (x : NdArray α) : Except String (NdArray α) :=
  match x.shape with
  | n :: m :: p :: r => if p = 0 then .error "IndexError" else
      .ok ⟨n :: m :: (p + 1) :: r, fun i => match i with
        | i :: j :: k :: l => if k < p then x.get (i :: j :: k :: l) else x.get (i :: j :: 0 :: l)
        | i => x.get i⟩
  | _ => .error "IndexError"

/-- `wrap_periodic` of one array, `/repo/shenfun/utilities/__init__.py:585-592`. -/
def wrapPeriodic (x : NdArray α) (axes : List ℕ) : Except String (NdArray α) :=
  (if 0 ∈ axes then vstackFirst x else .ok x).bind fun x =>
  (if 1 ∈ axes then hstackFirst x else .ok x).bind fun x =>
  if 2 ∈ axes then dstackFirst x else .ok x

/-- `wrap_periodic` of a list of arrays, `/repo/shenfun/utilities/__init__.py:583-595` (a list of one array
is unpacked afterwards, which is not modelled). -/
def wrapPeriodicList (xs : List (NdArray α)) (axes : List ℕ) : Except String (List (NdArray α)) :=
  xs.mapM fun x => x.wrapPeriodic axes

end NdArray

/-! ## `CachedArrayDict` -/

/-- The transformed key `(shape, dtype, n)`, `/repo/shenfun/utilities/__init__.py:119-122`. -/
abbrev CKey := List ℕ × String × ℕ

/-- An array object in memory. -/
structure WArr where
  shape : List ℕ
  dtype : String
  data : List ℕ → ℤ

/-- The dictionary and the memory in which its arrays live; `next` is the address of the next new array. -/
structure CacheState where
  data : List (CKey × ℕ)
  heap : ℕ → WArr
  next : ℕ

namespace CacheState

/-- `CachedArrayDict.__init__`, `/repo/shenfun/utilities/__init__.py:104-105`; the memory may already contain
other arrays. -/
def init (heap : ℕ → WArr) (next : ℕ) : CacheState := ⟨[], heap, next⟩

/-- `CachedArrayDict.__getitem__`, `/repo/shenfun/utilities/__init__.py:107-117`: returns the address of the
array.  `garbage` is the content of uninitialised memory. -/
def getitem (s : CacheState) (key : CKey) (fill : Bool) (garbage : List ℕ → ℤ) : ℕ × CacheState :=
  let r : ℕ × CacheState := match s.data.lookup key with
    | some a => (a, s)
    | none => (s.next, { data := (key, s.next) :: s.data,
                         heap := Function.update s.heap s.next ⟨key.1, key.2.1, garbage⟩,
                         next := s.next + 1 })
  if fill then (r.1, { r.2 with heap := Function.update r.2.heap r.1 { r.2.heap r.1 with data := fun _ => 0 } })
  else r

/-- `CachedArrayDict.__delitem__`, `/repo/shenfun/utilities/__init__.py:130-131` (the array itself stays alive
as long as somebody uses it). -/
def delitem (s : CacheState) (key : CKey) : CacheState :=
  { s with data := s.data.filter fun p => p.1 ≠ key }

/-- The user writes to an array. -/
def write (s : CacheState) (a : ℕ) (d : List ℕ → ℤ) : CacheState :=
  { s with heap := Function.update s.heap a { s.heap a with data := d } }

/-- The user allocates some other array. -/
def alloc (s : CacheState) (w : WArr) : CacheState :=
  { s with heap := Function.update s.heap s.next w, next := s.next + 1 }

/-- What a program can do with the dictionary. -/
inductive Op
  | get (key : CKey) (fill : Bool) (garbage : List ℕ → ℤ)
  | del (key : CKey)
  | write (a : ℕ) (d : List ℕ → ℤ)
  | alloc (w : WArr)

/-- One operation. -/
def step (s : CacheState) : Op → CacheState
  | .get key fill g => (s.getitem key fill g).2
  | .del key => s.delitem key
  | .write a d => s.write a d
  | .alloc w => s.alloc w

/-- A history of operations. -/
def run (s : CacheState) (ops : List Op) : CacheState := ops.foldl step s

end CacheState

end Shenfun
