import Verif.Model.Xdmf
import Mathlib.Tactic.FieldSimp
import Mathlib.Tactic.Ring
import Mathlib.Tactic.FinCases
import Mathlib.Algebra.CharZero.Defs
import Mathlib.Algebra.Order.Field.Rat
import Mathlib.Tactic.NormNum
import Mathlib.Tactic.LinearCombination
import Mathlib.Data.Fintype.Basic

/-!
# C78: XDMF files describe the grid of the data
-/

namespace Shenfun.Spec

variable {K : Type*} [Field K]

/-- The uniform grid of `n` points on `origin + [0, length]`: a periodic grid leaves out the right end point. -/
def gridStep (length : K) (n : ℕ) (periodic : Bool) : K := if periodic then length / n else length / ((n : K) - 1)

/-- The point with index `m` of that grid. -/
def gridPoint (dom : K × K) (n : ℕ) (periodic : Bool) (m : ℕ) : K := dom.1 + m * gridStep dom.2 n periodic

end Shenfun.Spec

namespace Shenfun.Xdmf

open Spec

variable {K : Type*} [Field K]

theorem step_eq (L : K) (n : ℕ) (periodic : ℕ → Bool) (a : ℕ) :
    L / ((n : K) - perList periodic a) = gridStep L n (periodic a) := by
  unfold perList gridStep
  cases periodic a <;> simp

/-- **C78 (3D, 2D for Paraview).** Origins and spacings are those of the grid of the data, axis by axis. -/
theorem C78_domain (dom : ℕ → K × K) (periodic : ℕ → Bool) (i j k N0 N1 : ℕ) (N : Fin 3 → ℕ) :
    geo3 dom (perList periodic) i j k N
        = [(dom i).1, (dom j).1, (dom k).1, gridStep (dom i).2 (N 0) (periodic i), gridStep (dom j).2 (N 1) (periodic j),
            gridStep (dom k).2 (N 2) (periodic k)]
      ∧ geo2 .paraview dom (perList periodic) i j N0 N1
        = (((dom i).1, (dom j).1), (gridStep (dom i).2 N0 (periodic i), gridStep (dom j).2 N1 (periodic j))) := by
  simp only [geo3, geo2, step_eq, and_self]

/-- **C78 (refuted: 2D for Visit).** The default order divides the length of each axis by the number of points of the
other: the spacing is right exactly when the two axes have equally many points. -/
theorem C78_visit [CharZero K] (dom : ℕ → K × K) (periodic : ℕ → Bool) (i j N0 N1 : ℕ) (h0 : 2 ≤ N0) (h1 : 2 ≤ N1)
    (hL : (dom j).2 ≠ 0) :
    (geo2 .visit dom (perList periodic) i j N0 N1).2.1 = gridStep (dom j).2 N1 (periodic j) ↔ N0 = N1 := by
  simp only [geo2]
  rw [← step_eq]
  have hp : perList periodic j ≤ 1 := by unfold perList; split_ifs <;> omega
  have e : ∀ n : ℕ, 2 ≤ n → ((n : K) - perList periodic j) ≠ 0 := by
    intro n hn
    rw [sub_ne_zero]
    exact fun h => by have := Nat.cast_injective h; omega
  constructor
  · intro h
    rw [div_eq_div_iff (e N0 h0) (e N1 h1)] at h
    have := mul_left_cancel₀ hL h
    have := Nat.cast_injective (R := K) (sub_left_injective this)
    exact this.symm
  · rintro rfl; rfl

/-- **C78 (slices: what is written).** The position along the normal is computed as if that axis were periodic; the
spacings in the plane are right for a list `per` that no other slice has changed. -/
theorem C78_slice (dom : ℕ → K × K) (periodic : ℕ → Bool) (shape : Fin 3 → ℕ) (kk : Fin 3) (sl : ℕ) :
    (geoSlice dom (perList periodic) shape kk sl)[kk.val]? = some (gridPoint (dom kk) (shape kk) true sl) ∧
      ∀ a : Fin 3, a ≠ kk → (geoSlice dom (perList periodic) shape kk sl)[a.val]? = some (dom a).1 ∧
        (geoSlice dom (perList periodic) shape kk sl)[a.val + 3]? = some (gridStep (dom a).2 (shape a) (periodic a)) := by
  constructor
  · fin_cases kk <;> simp [geoSlice, geo3, gridPoint, gridStep, perAfter, mul_comm]
  · intro a ha
    rw [← step_eq]
    fin_cases kk <;> fin_cases a <;> first | exact absurd rfl ha | simp [geoSlice, geo3, perAfter]

/-- **C78 (slices of periodic data).** Along a periodic normal the position is that of the slice. -/
theorem C78_slice_periodic (dom : ℕ → K × K) (periodic : ℕ → Bool) (shape : Fin 3 → ℕ) (kk : Fin 3) (sl : ℕ)
    (h : periodic kk = true) : (geoSlice dom (perList periodic) shape kk sl)[kk.val]?
      = some (gridPoint (dom kk) (shape kk) (periodic kk) sl) := by
  rw [(C78_slice dom periodic shape kk sl).1, h]

/-- **C78 (refuted: slices of non-periodic data).** The position is wrong for every slice but the first. -/
theorem C78_slice_nonperiodic [CharZero K] (dom : ℕ → K × K) (periodic : ℕ → Bool) (shape : Fin 3 → ℕ) (kk : Fin 3) (sl : ℕ)
    (h : periodic kk = false) (hN : 2 ≤ shape kk) (hL : (dom kk).2 ≠ 0) :
    (geoSlice dom (perList periodic) shape kk sl)[kk.val]? = some (gridPoint (dom kk) (shape kk) (periodic kk) sl)
      ↔ sl = 0 := by
  rw [(C78_slice dom periodic shape kk sl).1, h, Option.some_inj]
  unfold gridPoint gridStep
  simp only [if_true, Bool.false_eq_true, if_false, add_right_inj]
  constructor
  · intro e
    by_contra hs
    have hs' : (sl : K) ≠ 0 := by exact_mod_cast hs
    have e := mul_left_cancel₀ hs' e
    have h1 : (shape kk : K) ≠ 0 := by
      have : shape kk ≠ 0 := by omega
      exact_mod_cast this
    have h2 : (shape kk : K) - 1 ≠ 0 := by
      rw [sub_ne_zero]
      have : shape kk ≠ 1 := by omega
      exact_mod_cast this
    rw [div_eq_div_iff h1 h2] at e
    have e := mul_left_cancel₀ hL e
    have : (1 : K) = 0 := by linear_combination -e
    exact one_ne_zero this
  · rintro rfl; simp

/-- **C78 (refuted: several slices).** The list `per` is changed in place: after a slice normal to axis `kk`, the spacing
along `kk` in every later slice is that of a periodic axis. -/
theorem C78_slice_leak (dom : ℕ → K × K) (periodic : ℕ → Bool) (shape : Fin 3 → ℕ) (kk b : Fin 3) (hb : b ≠ kk) (sl sl' : ℕ) :
    ∃ g g', geoSlices dom shape (perList periodic) [(kk, sl), (b, sl')] = [g, g'] ∧
      g'[kk.val + 3]? = some (gridStep (dom kk).2 (shape kk) true) := by
  refine ⟨_, _, rfl, ?_⟩
  fin_cases kk <;> fin_cases b <;> first | exact absurd rfl hb | simp [geoSlice, geo3, perAfter, gridStep]

/-- **C78 (mesh).** With stored coordinates every item announces as many values as its coordinate array has: the axis
lengths for whole arrays (3D, and 2D in both orders), and one value, the position, for the normal of a slice. -/
theorem C78_mesh (mesh : ℕ → ℕ → K) (shape : Fin 3 → ℕ) (kk : Fin 3) (sl i j N0 N1 : ℕ) :
    mesh3 shape = [(.num (shape 2), Entry.coord (K := K) 2), (.num (shape 1), .coord 1), (.num (shape 0), .coord 0)] ∧
      mesh2 .paraview i j N0 N1 = [(.num N0, Entry.coord (K := K) i), (.num N1, .coord j)] ∧
      mesh2 .visit i j N0 N1 = [(.num N1, Entry.coord (K := K) j), (.num N0, .coord i)] ∧
      meshSlice mesh shape kk sl = ([2, 1, 0] : List (Fin 3)).map fun a =>
        if a = kk then (.num 1, .pos (mesh kk sl)) else (.num (shape a), .coord a) := by
  refine ⟨rfl, rfl, rfl, ?_⟩
  fin_cases kk <;> rfl

/-- **C78 (times).** As many grids as time steps are declared exactly when the slice has data at every time step at which
anything was written. -/
theorem C78_times (dsets : List (ℕ × List String)) (slices : String) :
    (timesAndGrids dsets slices).2.length = (timesAndGrids dsets slices).1 ↔ ∀ d ∈ dsets, slices ∈ d.2 := by
  unfold timesAndGrids
  rw [List.length_map, List.length_filter_eq_length_iff]
  simp

/-- A grid of 4 by 8 points in the default order: the spacings come out as 1/4 and 1/8 instead of 1/8 and 1/4. -/
example : (geo2 .visit (fun _ => ((0 : ℚ), 1)) (perList fun _ => true) 0 1 4 8).2 = (1 / 4, 1 / 8)
    ∧ gridStep (1 : ℚ) 8 true = 1 / 8 := by
  constructor <;> simp [geo2, perList, gridStep]

end Shenfun.Xdmf
