import Verif.Model.Project
import Verif.Model.Fourier
import Mathlib.Data.Int.Log
import Mathlib.Data.Rat.Floor

/-!
# `Function.refine` and `Function.assign`, `/repo/shenfun/forms/arguments.py:1693-1827`

Global arrays are functions of a multi-index (the redistributions of lines 1798, 1819-1820 do not change them); coefficients
are complex. The lengths of the new array are computed in floating point by the code (lines 1783-1787, 1799-1806); the
rounding is a parameter.
-/

namespace Shenfun.Refine

open Fourier

/-- The three implementations of `_padding_backward`: complex and real-to-complex Fourier bases, and all the other bases
(`/repo/shenfun/spectralbase.py:1363-1391`) with `nb` boundary functions (`0` for orthogonal bases). -/
inductive Kind
  | c2c
  | r2c
  | poly (nb : ℕ)

/-- Number of coefficients of a basis with `N` points. -/
def stored (k : Kind) (N : ℕ) : ℕ := match k with | .r2c => N / 2 + 1 | _ => N

/-- `SpectralBase._padding_backward` to a different array of length `M`, `/repo/shenfun/spectralbase.py:1369-1391`:
`self.slice()` is `slice(0, N-nb)` and the slice of the space of boundary functions is `slice(N-nb, N)`. -/
def padPoly (nb N M : ℕ) (u : ℕ → ℂ) : ℕ → ℂ :=
  let p : ℕ → ℂ := fun _ => 0
  let p : ℕ → ℂ := fun i => if i < N - nb then u i else p i
  if nb = 0 then p else fun i => if M - nb ≤ i ∧ i < M then u (i - (M - nb) + (N - nb)) else p i

/-- `SpectralBase._truncation_forward` to a different array of length `M`, `/repo/shenfun/spectralbase.py:1363-1367`:
`s` is `slice(0, N-nb)` for both arrays. `none`: the shapes do not agree (`ValueError`). -/
def truncPoly (nb N M : ℕ) (p : ℕ → ℂ) : Option (ℕ → ℂ) :=
  let stop := N - nb
  if min stop M = stop then some fun i => if i < stop then p i else 0 else none

/-- `R2C._truncation_forward`, `/repo/shenfun/fourier/bases.py:409-418`, called on the base with `N` points (`self.N`), to an
array of length `L`. -/
noncomputable def truncHalf (N L : ℕ) (p : ℕ → ℂ) : ℕ → ℂ :=
  let t : ℕ → ℂ := fun i => if i < L then p i else 0
  if N % 2 = 0 then
    let t := Function.update t (L - 1) ((t (L - 1)).re : ℂ)
    Function.update t (L - 1) (t (L - 1) * 2)
  else t

/-- `base._padding_backward` on a line, `/repo/shenfun/fourier/bases.py:420-430, 579-594`; `M` is the length of the new array. -/
noncomputable def padLine (k : Kind) (N M : ℕ) (u : ℕ → ℂ) : ℕ → ℂ :=
  match k with
  | .c2c => padC2C N M u
  | .r2c => padR2C N u
  | .poly nb => padPoly nb N M u

/-- `base._truncation_forward` on a line; `L` is the length of the new array. -/
noncomputable def truncLine (k : Kind) (N L : ℕ) (u : ℕ → ℂ) : Option (ℕ → ℂ) :=
  match k with
  | .c2c => some (truncC2C L N u)
  | .r2c => some (truncHalf N L u)
  | .poly nb => truncPoly nb N L u

/-- `Function.assign` in one dimension, `/repo/shenfun/forms/arguments.py:1704-1711`: from `N` to `M` points. -/
noncomputable def assign1 (k : Kind) (N M : ℕ) (u : ℕ → ℂ) : Option (ℕ → ℂ) :=
  let L := stored k N
  let L' := stored k M
  if L < L' then some (padLine k N L' u)
  else if L = L' then some u
  else truncLine k N L' u

/-- The new length along an axis, `/repo/shenfun/forms/arguments.py:1782-1787` (first axis) and `1799-1806` (other axes).
`fl` rounds a real result to a floating point number. -/
def newLen (fl : ℚ → ℚ) (first : Bool) (k : Kind) (N M : ℕ) : ℕ :=
  let factor := fl ((M : ℚ) / N)
  let g := stored k N
  match k with
  | .r2c => if first then ⌊fl ((2 * g - 2 : ℚ) * factor)⌋₊ / 2 + 1 else ⌊fl ((N : ℚ) * factor)⌋₊ / 2 + 1
  | _ => ⌊fl ((g : ℚ) * factor)⌋₊

variable {D : ℕ}

/-- A function on lines applied along axis `a`. -/
def alongLine (a : Fin D) (f : (ℕ → ℂ) → ℕ → ℂ) (u : Arr D ℂ) : Arr D ℂ :=
  fun I => f (fun j => u (Function.update I a j)) (I a)

/-- One axis of the loop of `refine`, `/repo/shenfun/forms/arguments.py:1782-1817`. -/
noncomputable def step (fl : ℚ → ℚ) (k : Fin D → Kind) (N M : Fin D → ℕ) (first : Bool) (a : Fin D) (u : Arr D ℂ) :
    Option (Arr D ℂ) :=
  let L := newLen fl first (k a) (N a) (M a)
  if stored (k a) (N a) ≤ L then some (alongLine a (padLine (k a) (N a) L) u)
  else match k a with
    | .c2c => some (alongLine a (truncC2C L (N a)) u)
    | .r2c => some (alongLine a (truncHalf (N a) L) u)
    | .poly nb => if min (N a - nb) L = N a - nb then
        some (alongLine a (fun p => (truncPoly nb (N a) L p).getD p) u) else none

/-- The axes after the first. -/
noncomputable def steps (fl : ℚ → ℚ) (k : Fin D → Kind) (N M : Fin D → ℕ) : List (Fin D) → Arr D ℂ → Option (Arr D ℂ)
  | [], u => some u
  | a :: L, u => (step fl k N M false a u).bind (steps fl k N M L)

/-- `Function.refine` for a scalar space of `D ≥ 2` dimensions, `/repo/shenfun/forms/arguments.py:1780-1827`, with a sequence
`M` of new numbers of points. `axes` is the flattened `space.axes`. The result becomes the buffer of a function of the new
space, or is copied to the given function: both fail (`none`) when the shapes differ. -/
noncomputable def refine (fl : ℚ → ℚ) (k : Fin D → Kind) (N M : Fin D → ℕ) (axes : List (Fin D)) (u : Arr D ℂ) :
    Option (Arr D ℂ) :=
  match axes with
  | [] => none
  | a :: L =>
    if (newLen fl true (k a) (N a) (M a) = stored (k a) (M a)) ∧
        ∀ b ∈ L, newLen fl false (k b) (N b) (M b) = stored (k b) (M b) then
      (step fl k N M true a u).bind (steps fl k N M L)
    else none

/-- `Function.refine` of a vector function without `output_array`, `/repo/shenfun/forms/arguments.py:1770-1779`, and the loop of
`assign`, lines 1716-1719: the components one after the other, each with the bases `k i` of its own space. -/
noncomputable def refineVec {n : ℕ} (fl : ℚ → ℚ) (k : Fin n → Fin D → Kind) (N M : Fin D → ℕ) (axes : List (Fin D))
    (u : Fin n → Arr D ℂ) : Option (Fin n → Arr D ℂ) :=
  open Classical in
  if ∀ i, (refine fl (k i) N M axes (u i)).isSome then some fun i => (refine fl (k i) N M axes (u i)).getD (u i) else none

/-- The spaces of the components of the result of `refine` without `output_array`: `VectorSpace(T)` with `T` the space of the
first component, `/repo/shenfun/forms/arguments.py:1775-1778`. -/
def resultSpace {n : ℕ} {σ : Type*} (S : Fin (n + 1) → σ) : Fin (n + 1) → σ := fun _ => S 0

/-- Rounding to an integer, ties to even. -/
def roundEven (q : ℚ) : ℤ :=
  if q - ⌊q⌋ < 1 / 2 then ⌊q⌋ else if 1 / 2 < q - ⌊q⌋ then ⌊q⌋ + 1 else if ⌊q⌋ % 2 = 0 then ⌊q⌋ else ⌊q⌋ + 1

/-- IEEE 754 binary64 rounding of a positive number (53 significant bits, no overflow or underflow). -/
noncomputable def binary64 (q : ℚ) : ℚ :=
  let ulp := (2 : ℚ) ^ (Int.log 2 q - 52)
  roundEven (q / ulp) * ulp

end Shenfun.Refine
