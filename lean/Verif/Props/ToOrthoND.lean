import Verif.Spec.ToOrthoND
import Verif.Props.ToOrtho
import Verif.Props.TensorTransform
import Mathlib.Tactic.FinCases

/-!
# C90: conversion of tensor product coefficients to orthogonal coefficients
-/

namespace Shenfun.OrthoND

open Finset Spec Shenfun.Spec Refine

/-! ## One axis -/

theorem toOrtho_entry (A : SM ℝ) (N m cols : ℕ) (sol : ℕ → ℕ → ℝ) (nonhom : Bool) (u : ℕ → ℝ) (j : ℕ)
    (hj : j < N) : toOrtho A N (N - m) m cols sol nonhom u j
      = ∑ i ∈ range (N - m), diagsEntry A.diags i j * u i
        + ∑ s ∈ range m, (if nonhom = true ∧ j < cols then sol s j else 0) * u (N - m + s) := by
  cases nonhom with
  | false =>
    rw [toOrtho_apply A N (N - m) m cols (Nat.sub_le _ _) sol u j hj]
    simp
  | true =>
    have h : toOrtho A N (N - m) m cols sol true u j = toOrtho A N (N - m) m cols sol false u j +
        if j < cols then ∑ s ∈ Finset.range m, sol s j * u (N - m + s) else 0 := by
      simp only [toOrtho, addToOrthogonal, if_true, Bool.false_eq_true, if_false]
      split_ifs <;> simp
    rw [h, toOrtho_apply A N (N - m) m cols (Nat.sub_le _ _) sol u j hj]
    congr 1
    by_cases hc : j < cols <;> simp [hc]

theorem convert_entry (b : Axis) (u : ℕ → ℂ) (j : ℕ) (hj : j < b.N) :
    b.convert u j = ∑ i ∈ range (b.N - b.m), ((diagsEntry b.A.diags i j : ℝ) : ℂ) * u i
      + ∑ s ∈ range b.m, ((if b.nonhom = true ∧ j < b.cols then b.sol s j else 0 : ℝ) : ℂ) * u (b.N - b.m + s) := by
  unfold Axis.convert
  apply Complex.ext
  · simp only [toOrtho_entry _ _ _ _ _ _ _ _ hj, Complex.add_re, Complex.re_sum, Complex.re_ofReal_mul]
  · simp only [toOrtho_entry _ _ _ _ _ _ _ _ hj, Complex.add_im, Complex.im_sum, Complex.im_ofReal_mul]

theorem convert_value (b : Axis) (hm : b.m ≤ b.N) (hc : b.cols ≤ b.N) (ho : b.orthogonal = false) (Q : ℕ → ℂ) (u : ℕ → ℂ) :
    ∑ j ∈ range b.N, b.convert u j * Q j = ∑ i ∈ range b.N, u i * basis b Q i := by
  have hN : b.N = (b.N - b.m) + b.m := by omega
  conv_rhs => rw [hN, sum_range_add]
  rw [sum_congr rfl fun j hj => by rw [convert_entry b u j (mem_range.1 hj), add_mul, sum_mul, sum_mul], sum_add_distrib]
  congr 1
  · rw [sum_comm]
    refine sum_congr rfl fun i hi => ?_
    rw [basis, ho, if_neg (by simp), if_pos (mem_range.1 hi), mul_sum]
    exact sum_congr rfl fun j _ => by ring
  · rw [sum_comm]
    refine sum_congr rfl fun s _ => ?_
    rw [basis, ho, if_neg (by simp), if_neg (by omega), Nat.add_sub_cancel_left]
    cases b.nonhom with
    | false => simp
    | true =>
      rw [if_pos rfl, mul_sum]
      have hsub : range b.cols ⊆ range b.N := range_subset_range.2 hc
      rw [← sum_subset hsub fun j _ hj => by rw [if_neg (by simpa using hj)]; simp]
      refine sum_congr rfl fun j hj => ?_
      rw [if_pos ⟨rfl, mem_range.1 hj⟩]
      ring

/-! ## All axes -/

variable {D : ℕ}

/-- Changing coefficients and functions along one axis, without changing the expansions on the lines. -/
theorem value_line (n : Fin D → ℕ) (φ φ' : Fin D → ℕ → ℂ) (a : Fin D) (h : ∀ b, b ≠ a → φ' b = φ b)
    (f : (ℕ → ℂ) → ℕ → ℂ) (u : Arr D ℂ)
    (hf : ∀ v : ℕ → ℂ, ∑ j ∈ range (n a), f v j * φ' a j = ∑ j ∈ range (n a), v j * φ a j) :
    value n φ' (alongLine a f u) = value n φ u := by
  have key : ∀ (φ : Fin D → ℕ → ℂ) (v : Arr D ℂ), value n φ v
      = ((Finset.univ.erase a).toList ++ [a]).foldr (fun b w => TPT.along (n b) (fun _ j => φ b j) b w) v (fun _ => 0) := by
    intro φ v
    have hnd : ((Finset.univ.erase a).toList ++ [a]).Nodup := by
      rw [List.nodup_append]
      refine ⟨Finset.nodup_toList _, List.nodup_singleton _, ?_⟩
      intro b hb c hc hbc
      rw [List.mem_singleton] at hc
      rw [Finset.mem_toList, Finset.mem_erase] at hb
      exact hb.1 (hbc.trans hc)
    rw [TPT.all_axes n (fun b _ j => φ b j) _ hnd (fun b => by by_cases hb : b = a <;> simp [hb])]
    unfold value Shenfun.Spec.tensorApply Shenfun.Spec.tensorEntry
    refine Finset.sum_congr rfl fun I _ => ?_
    rw [one_mul, mul_comm]
  rw [key, key, List.foldr_append, List.foldr_append, List.foldr_cons, List.foldr_cons, List.foldr_nil, List.foldr_nil]
  have e : TPT.along (n a) (fun _ j => φ' a j) a (alongLine a f u) = TPT.along (n a) (fun _ j => φ a j) a u := by
    funext I
    have := hf fun j => u (Function.update I a j)
    unfold TPT.along alongLine
    simp only [Function.update_idem, Function.update_self]
    rw [Finset.sum_congr rfl fun j _ => mul_comm _ _, this]
    exact Finset.sum_congr rfl fun j _ => mul_comm _ _
  rw [e]
  have gen : ∀ (L : List (Fin D)), a ∉ L → ∀ v : Arr D ℂ,
      L.foldr (fun b w => TPT.along (n b) (fun _ j => φ' b j) b w) v
      = L.foldr (fun b w => TPT.along (n b) (fun _ j => φ b j) b w) v := by
    intro L hL v
    induction L with
    | nil => rfl
    | cons b L ih =>
      rw [List.mem_cons, not_or] at hL
      rw [List.foldr_cons, List.foldr_cons, ih hL.2, h b (Ne.symm hL.1)]
  rw [gen _ (by simp)]

/-- The conversion of the axis `a`, when the functions along it are those of the base. -/
theorem next_value (b : Fin D → Axis) (hm : ∀ a, (b a).m ≤ (b a).N) (hc : ∀ a, (b a).cols ≤ (b a).N) (Q : Fin D → ℕ → ℂ)
    (φ : Fin D → ℕ → ℂ) (a : Fin D) (hφ : φ a = basis (b a) (Q a)) (out : Arr D ℂ) :
    value (fun a => (b a).N) (Function.update φ a (Q a)) (next b out a) = value (fun a => (b a).N) φ out := by
  unfold next
  dsimp only
  cases ho : (b a).orthogonal with
  | false =>
    rw [if_pos (by simp)]
    refine value_line _ φ _ a (fun c h => Function.update_of_ne h _ _) _ _ fun v => ?_
    rw [Function.update_self, hφ]
    exact convert_value (b a) (hm a) (hc a) ho (Q a) v
  | true =>
    rw [if_neg (by simp)]
    congr 1
    have : basis (b a) (Q a) = Q a := by
      funext i
      rw [basis, ho, if_pos rfl]
    rw [← this, ← hφ, Function.update_eq_self]

theorem foldl_value (b : Fin D → Axis) (hm : ∀ a, (b a).m ≤ (b a).N) (hc : ∀ a, (b a).cols ≤ (b a).N) (Q : Fin D → ℕ → ℂ)
    (L : List (Fin D)) (hL : L.Nodup) (φ : Fin D → ℕ → ℂ) (hφ : ∀ a ∈ L, φ a = basis (b a) (Q a)) (out : Arr D ℂ) :
    value (fun a => (b a).N) (fun a => if a ∈ L then Q a else φ a) (L.foldl (next b) out) = value (fun a => (b a).N) φ out := by
  induction L generalizing φ out with
  | nil => simp
  | cons a L ih =>
    obtain ⟨ha, hL'⟩ := List.nodup_cons.1 hL
    rw [List.foldl_cons, ← next_value b hm hc Q φ a (hφ a (by simp)) out,
      ← ih hL' (Function.update φ a (Q a)) (fun c hc' => by
        have hne : c ≠ a := fun h => ha (h ▸ hc')
        rw [Function.update_of_ne hne]
        exact hφ c (by simp [hc'])) (next b out a)]
    congr 1
    funext c
    by_cases hca : c = a
    · subst hca
      simp [ha]
    · simp [hca]

/-- **C90.** In every number of dimensions, with any mixture of composite, orthogonal and Fourier bases of which at least one is
not Fourier, `to_ortho` returns coefficients of the same function in the orthogonal space: the value is the same at every
point (`Q` are the values of the orthogonal functions there), also for inhomogeneous boundary conditions. -/
theorem C90_to_ortho (b : Fin D → Axis) (hm : ∀ a, (b a).m ≤ (b a).N) (hc : ∀ a, (b a).cols ≤ (b a).N)
    (hF : ∀ a, (b a).fourier = true → (b a).orthogonal = true) (hne : ∃ a, (b a).fourier = false) (u : Arr D ℂ) :
    ∃ w, toOrthoND b u = some w ∧ ∀ Q : Fin D → ℕ → ℂ,
      value (fun a => (b a).N) Q w = value (fun a => (b a).N) (fun a => basis (b a) (Q a)) u := by
  have hnd : (nonperiodic b).Nodup := (List.nodup_finRange D).filter _
  have hmem : ∀ a, a ∈ nonperiodic b ↔ (b a).fourier = false := fun a => by simp [nonperiodic]
  have hq : toOrthoND b u = some ((nonperiodic b).foldl (next b) u) := by
    unfold toOrthoND
    split
    · rename_i h
      obtain ⟨a, ha⟩ := hne
      have := (hmem a).2 ha
      rw [h] at this
      exact absurd this (by simp)
    · rename_i a L h
      rw [h]
      rfl
  refine ⟨_, hq, fun Q => ?_⟩
  rw [← foldl_value b hm hc Q _ hnd (fun a => basis (b a) (Q a)) (fun _ _ => rfl) u]
  congr 1
  funext a
  split_ifs with h
  · rfl
  · have hf : (b a).fourier = true := by
      cases hv : (b a).fourier with
      | false => exact absurd ((hmem a).2 hv) h
      | true => rfl
    funext i
    rw [basis, hF a hf, if_pos rfl]

/-- **C90 is wrong** when all bases are Fourier, although the space is its own orthogonal space: `IndexError`. -/
theorem C90_fourier_fails (b : Fin D → Axis) (h : ∀ a, (b a).fourier = true) (u : Arr D ℂ) : toOrthoND b u = none := by
  have : nonperiodic b = [] := by simp [nonperiodic, h]
  unfold toOrthoND
  rw [this]

/-- A case of `C90_to_ortho`: a Chebyshev Dirichlet basis with inhomogeneous conditions and a Fourier basis. -/
noncomputable example (u : Arr 2 ℂ) :
    let b : Fin 2 → Axis := ![⟨6, false, false, stencilMatrix ChebStencil.ShenDirichlet 6 2, 2, 2, fun s j => s + j, true⟩,
      ⟨8, true, true, ⟨8, 8, 1, []⟩, 0, 0, fun _ _ => 0, false⟩]
    ∃ w, toOrthoND b u = some w ∧ ∀ Q, value (fun a => (b a).N) Q w = value (fun a => (b a).N) (fun a => basis (b a) (Q a)) u := by
  intro b
  refine C90_to_ortho b ?_ ?_ ?_ ⟨0, rfl⟩ u <;> intro a <;> fin_cases a <;> simp [b]

end Shenfun.OrthoND
