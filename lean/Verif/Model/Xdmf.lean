import Mathlib.Algebra.Field.Basic
import Mathlib.Data.Fin.VecNotation

/-!
# `generate_xdmf`, `/repo/shenfun/io/generate_xdmf.py:102-287`

The numbers put into the geometry part of the XDMF files, and the number of grids. Text formatting and the reading of
the HDF5 file are not modelled: `dom a = (origin, length)` is the data set `domain/x<a>`, `N` the shape of a data set,
`shape` the shape of the whole array.
-/

namespace Shenfun.Xdmf

variable {K : Type*} [Field K]

/-- The list `periodic` after lines 140-146: 0 along periodic axes, 1 along the others. -/
def perList (periodic : ℕ → Bool) : ℕ → ℕ := fun a => if periodic a then 0 else 1

/-- The argument `order`. -/
inductive Order | paraview | visit
  deriving DecidableEq

/-- Two-dimensional data with `domain`, lines 195-210: origins and spacings in the order written. `i`, `j` are the axes
of the data set, `N0`, `N1` its shape. -/
def geo2 (order : Order) (dom : ℕ → K × K) (per : ℕ → ℕ) (i j N0 N1 : ℕ) : (K × K) × (K × K) :=
  match order with
  | .paraview => (((dom i).1, (dom j).1), ((dom i).2 / ((N0 : K) - per i), (dom j).2 / ((N1 : K) - per j)))
  | .visit => (((dom j).1, (dom i).1), ((dom j).2 / ((N0 : K) - per j), (dom i).2 / ((N1 : K) - per i)))

/-- Three-dimensional data with `domain`, lines 215-222: origins, then spacings. -/
def geo3 (dom : ℕ → K × K) (per : ℕ → ℕ) (i j k : ℕ) (N : Fin 3 → ℕ) : List K :=
  [(dom i).1, (dom j).1, (dom k).1, (dom i).2 / ((N 0 : K) - per i), (dom j).2 / ((N 1 : K) - per j),
    (dom k).2 / ((N 2 : K) - per k)]

/-- A slice `x_kk = sl` of three-dimensional data: the list `per` is changed in place, line 214. -/
def perAfter (per : ℕ → ℕ) (kk : ℕ) : ℕ → ℕ := fun a => if a = kk then 0 else per a

/-- Lines 177-193, 211-229 for a slice normal to axis `kk` at index `sl`: `N` has a 1 inserted at `kk`. -/
def geoSlice (dom : ℕ → K × K) (per : ℕ → ℕ) (shape : Fin 3 → ℕ) (kk : Fin 3) (sl : ℕ) : List K :=
  let per' := perAfter per kk
  let data := geo3 dom per' 0 1 2 fun a => if a = kk then 1 else shape a
  let pos := (dom kk).1 + (dom kk).2 / ((shape kk : K) - per' kk) * sl
  (data.set kk pos).set (kk + 3) pos

/-- The slices of one file are handled one after the other with the same list `per`, lines 151, 167-229. -/
def geoSlices (dom : ℕ → K × K) (shape : Fin 3 → ℕ) : (ℕ → ℕ) → List (Fin 3 × ℕ) → List (List K)
  | _, [] => []
  | per, (kk, sl) :: l => geoSlice dom per shape kk sl :: geoSlices dom shape (perAfter per kk) l

/-- An argument of `geo.format(*sig)`: a number of points, the coordinate array of an axis, the position of a slice, or
something else. -/
inductive Entry (K : Type*)
  | num (n : ℕ)
  | coord (a : ℕ)
  | pos (x : K)
  | text

/-- `get_geometry(kind=1, dim=3)`, lines 62-72: the numbers of the arguments used for `Dimensions` and content of the
three items. -/
def template3 : List (ℕ × ℕ) := [(3, 5), (2, 6), (1, 7)]

/-- `get_geometry(kind=1, dim=2)`, lines 40-50: the two items that depend on arguments. -/
def template2 : List (ℕ × ℕ) := [(1, 4), (2, 5)]

/-- `geo.format(*sig)`: `Dimensions` and content of every item. -/
def format (t : List (ℕ × ℕ)) (sig : List (Entry K)) : List (Entry K × Entry K) :=
  t.map fun p => (sig.getD p.1 .text, sig.getD p.2 .text)

/-- Three-dimensional data with `mesh`, lines 235, 249-250. -/
def mesh3 (N : Fin 3 → ℕ) : List (Entry K × Entry K) :=
  format template3 [.text, .num (N 0), .num (N 1), .num (N 2), .text, .coord 2, .coord 1, .coord 0, .text]

/-- Two-dimensional data with `mesh`, lines 233, 237-241, 250: `i`, `j` the axes, `N0`, `N1` the shape. -/
def mesh2 (order : Order) (i j N0 N1 : ℕ) : List (Entry K × Entry K) :=
  match order with
  | .paraview => format template2 [.text, .num N0, .num N1, .text, .coord i, .coord j, .text]
  | .visit => format template2 [.text, .num N1, .num N0, .text, .coord j, .coord i, .text]

/-- Slice of three-dimensional data with `mesh`, lines 189-190, 243-250: `N` with a 1 inserted at `kk`, the coordinate
names of the other axes with the position inserted at `kk`, item `2 - kk` of the template replaced. -/
def meshSlice (mesh : ℕ → ℕ → K) (shape : Fin 3 → ℕ) (kk : Fin 3) (sl : ℕ) : List (Entry K × Entry K) :=
  let N : List ℕ := (((List.finRange 3).filter (· ≠ kk)).map shape).insertIdx kk 1
  let cc : List (Entry K) := (((List.finRange 3).filter (· ≠ kk)).map fun a => Entry.coord a.val).insertIdx kk (.pos (mesh kk sl))
  let geo := template3.set (2 - kk) (1 + kk, 7 - kk)
  format geo [.text, .num (N.getD 0 0), .num (N.getD 1 0), .num (N.getD 2 0), .text, cc.getD 2 .text, cc.getD 1 .text,
    cc.getD 0 .text, .text]

/-- Lines 254-283: the number of time steps declared in the file of `slices`, and the time steps for which it gets a
grid; `dsets` lists, for the sorted time steps, the slices that have data. -/
def timesAndGrids (dsets : List (ℕ × List String)) (slices : String) : ℕ × List ℕ :=
  (dsets.length, (dsets.filter fun d => slices ∈ d.2).map Prod.fst)

end Shenfun.Xdmf
