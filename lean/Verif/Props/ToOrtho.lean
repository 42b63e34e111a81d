import Verif.Props.Boundary

/-!
# C50: conversion of composite coefficients to orthogonal coefficients
-/

namespace Shenfun

open Polynomial Spec

theorem toOrthoStep_apply (N dim : ℕ) (hdim : dim ≤ N) (u w : ℕ → ℝ) (d : ℤ × (ℕ → ℝ)) (j : ℕ) (hj : j < N) :
    toOrthoStep N dim u w d j = w j + ∑ i ∈ Finset.range dim, diagEntry d i j * u i := by
  obtain ⟨k, v⟩ := d
  unfold toOrthoStep SM.sliceAdd
  rcases le_or_gt 0 k with hk | hk
  · obtain ⟨o, rfl⟩ := Int.eq_ofNat_of_zero_le hk
    have e1 : (max 0 (-(o:ℤ))).toNat = 0 := by omega
    have e2 : (max 0 (o:ℤ)).toNat = o := by omega
    have e3 : (min (dim : ℤ) ((N:ℤ) - max 0 (o:ℤ))).toNat = min dim (N - o) := by omega
    simp only [if_pos hk, e1, e2, e3, Nat.sub_zero, zero_add]
    split_ifs with h
    · congr 1
      rw [Finset.sum_eq_single (j - o)]
      · have : (j : ℤ) = ((j - o : ℕ) : ℤ) + o := by omega
        simp [diagEntry, ← this]
      · intro i _ hi
        have : ¬ ((j:ℤ) = i + o) := by omega
        simp [diagEntry, this]
      · intro hn; exact absurd (Finset.mem_range.2 (by omega)) hn
    · rw [Finset.sum_eq_zero, add_zero]
      intro i hi
      have := Finset.mem_range.1 hi
      have : ¬ ((j:ℤ) = i + o) := by omega
      simp [diagEntry, this]
  · obtain ⟨o, rfl⟩ : ∃ o : ℕ, k = -(o:ℤ) := ⟨(-k).toNat, by omega⟩
    have ho : 0 < o := by omega
    have e1 : (max 0 (-(-(o:ℤ)))).toNat = o := by omega
    have e2 : (max 0 (-(o:ℤ))).toNat = 0 := by omega
    have e3 : (min (dim : ℤ) ((dim:ℤ) - max 0 (-(o:ℤ)))).toNat = dim := by omega
    have hk' : ¬ (0 ≤ -(o:ℤ)) := by omega
    simp only [if_neg hk', e1, e2, e3, Nat.sub_zero, zero_add]
    split_ifs with h
    · congr 1
      rw [Finset.sum_eq_single (o + j)]
      · have : (j : ℤ) = ((o + j : ℕ) : ℤ) + -(o:ℤ) := by omega
        simp only [diagEntry, ← this, if_true, if_neg hk']
      · intro i _ hi
        have : ¬ ((j:ℤ) = i + -(o:ℤ)) := by omega
        simp [diagEntry, this]
      · intro hn; exact absurd (Finset.mem_range.2 (by omega)) hn
    · rw [Finset.sum_eq_zero, add_zero]
      intro i hi
      have := Finset.mem_range.1 hi
      have : ¬ ((j:ℤ) = i + -(o:ℤ)) := by omega
      simp [diagEntry, this]

theorem toOrtho_fold (N dim : ℕ) (hdim : dim ≤ N) (u : ℕ → ℝ) (L : List (ℤ × (ℕ → ℝ))) (w : ℕ → ℝ) (j : ℕ)
    (hj : j < N) :
    L.foldl (toOrthoStep N dim u) w j = w j + ∑ i ∈ Finset.range dim, diagsEntry L i j * u i := by
  induction L generalizing w with
  | nil => simp [diagsEntry]
  | cons d L ih =>
    rw [List.foldl_cons, ih, toOrthoStep_apply N dim hdim u w d j hj, add_assoc, ← Finset.sum_add_distrib]
    congr 1
    refine Finset.sum_congr rfl fun i _ => ?_
    simp only [diagsEntry, List.map_cons, List.sum_cons]
    ring

/-- **C50** (entries).  `to_ortho` multiplies by the transposed stencil matrix, rows `0, ..., dim-1` only. -/
theorem toOrtho_apply (A : SM ℝ) (N dim m cols : ℕ) (hdim : dim ≤ N) (sol : ℕ → ℕ → ℝ) (u : ℕ → ℝ) (j : ℕ) (hj : j < N) :
    toOrtho A N dim m cols sol false u j = ∑ i ∈ Finset.range dim, diagsEntry A.diags i j * u i := by
  simp [toOrtho, toOrtho_fold N dim hdim u A.diags _ j hj]

/-- **C50** (homogeneous conditions).  The orthogonal coefficients represent the same function as the composite
coefficients: `Σ_j w_j Q_j = Σ_{i<dim} u_i φ_i`, for every stencil matrix (any offsets), every family and every `u`. -/
theorem C50_to_ortho_homogeneous (Q : ℕ → ℝ[X]) (A : SM ℝ) (N dim m cols : ℕ) (hA : A.cols = N) (hs : A.scale = 1)
    (hdim : dim ≤ N) (sol : ℕ → ℕ → ℝ) (u : ℕ → ℝ) :
    ∑ j ∈ Finset.range N, C (toOrtho A N dim m cols sol false u j) * Q j =
      ∑ i ∈ Finset.range dim, C (u i) * basisFunction Q A i := by
  rw [Finset.sum_congr rfl fun j hj => by rw [toOrtho_apply A N dim m cols hdim sol u j (Finset.mem_range.1 hj)]]
  unfold basisFunction
  rw [hA, hs]
  simp only [map_sum, Finset.sum_mul, Finset.mul_sum, one_mul]
  rw [Finset.sum_comm]
  refine Finset.sum_congr rfl fun i _ => Finset.sum_congr rfl fun j _ => ?_
  rw [C_mul]
  ring

/-- **C50** (inhomogeneous conditions).  With boundary functions `χ_s = Σ_j sol[s, j] Q_j` the orthogonal coefficients
represent `Σ_{i<dim} u_i φ_i + Σ_{s<m} u_{N-m+s} χ_s`, as long as the boundary functions have at most `N` modes. -/
theorem C50_to_ortho (Q : ℕ → ℝ[X]) (A : SM ℝ) (N dim m cols : ℕ) (hA : A.cols = N) (hs : A.scale = 1)
    (hdim : dim ≤ N) (hcols : cols ≤ N) (sol : ℕ → ℕ → ℝ) (u : ℕ → ℝ) :
    ∑ j ∈ Finset.range N, C (toOrtho A N dim m cols sol true u j) * Q j =
      ∑ i ∈ Finset.range dim, C (u i) * basisFunction Q A i +
      ∑ s ∈ Finset.range m, C (u (N - m + s)) * ∑ j ∈ Finset.range cols, C (sol s j) * Q j := by
  rw [← C50_to_ortho_homogeneous Q A N dim m cols hA hs hdim sol u]
  have h : ∀ j, toOrtho A N dim m cols sol true u j = toOrtho A N dim m cols sol false u j +
      if j < cols then ∑ s ∈ Finset.range m, sol s j * u (N - m + s) else 0 := fun j => by
    simp only [toOrtho, addToOrthogonal, if_true, Bool.false_eq_true, if_false]
    split_ifs <;> simp
  simp only [h, C_add, add_mul, Finset.sum_add_distrib]
  congr 1
  have hsub : Finset.range cols ⊆ Finset.range N := Finset.range_subset_range.2 hcols
  rw [← Finset.sum_subset hsub (fun j _ hj => by rw [if_neg (by simpa using hj)]; simp)]
  rw [Finset.sum_congr rfl fun j hj => by rw [if_pos (Finset.mem_range.1 hj), map_sum, Finset.sum_mul],
    Finset.sum_comm]
  refine Finset.sum_congr rfl fun s _ => ?_
  rw [Finset.mul_sum]
  refine Finset.sum_congr rfl fun j _ => ?_
  rw [C_mul]
  ring

/-- **C50** in the composite spaces: `to_ortho` on the stencil matrix of any stencil. -/
theorem C50_to_ortho_composite (Q : ℕ → ℝ[X]) (st : Stencil) (N nbc : ℕ) (bv : ℕ → Side → ℕ → ℝ)
    (rows : List (Side × BCRow)) (hr : rows.length = nbc) (first : ℕ) (hcols : first + nbc ≤ N) (u : ℕ → ℝ) :
    ∑ j ∈ Finset.range N, C (toOrtho (stencilMatrix st N nbc) N (N - nbc) nbc (first + nbc)
        (fun s j => if h : s < rows.length then bcSol bv rows first ⟨s, h⟩ j else 0) true u j) * Q j =
      ∑ i ∈ Finset.range (N - nbc), C (u i) * basisFunction Q (stencilMatrix st N nbc) i +
      ∑ s : Fin rows.length, C (u (N - nbc + s)) * bcBasisFunction Q bv rows first s := by
  rw [C50_to_ortho Q _ N (N - nbc) nbc (first + nbc) rfl rfl (Nat.sub_le _ _) hcols]
  congr 1
  subst hr
  rw [Finset.sum_range]
  refine Finset.sum_congr rfl fun s _ => ?_
  simp [bcBasisFunction]

/-- Non-vacuity: Chebyshev Dirichlet space with six modes, all coefficients one; the orthogonal coefficient with index 2
is `u_2 - u_0 = 0` and that with index 0 is one. -/
example : toOrtho (stencilMatrix ChebStencil.ShenDirichlet 6 2) 6 4 2 2 (fun _ _ => 0) false (fun _ => 1) 0 = 1 ∧
    toOrtho (stencilMatrix ChebStencil.ShenDirichlet 6 2) 6 4 2 2 (fun _ _ => 0) false (fun _ => 1) 2 = 0 := by
  have h : (stencilMatrix ChebStencil.ShenDirichlet 6 2).diags = [(0, fun _ => 1), (2, fun _ => -1)] := by
    rfl
  constructor <;>
    (rw [toOrtho_apply _ _ _ _ _ (by norm_num) _ _ _ (by norm_num), h]
     simp [Finset.sum_range_succ, diagsEntry, diagEntry])

end Shenfun
