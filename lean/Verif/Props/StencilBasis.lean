import Verif.Lemmas.StencilBasis
import Verif.Props.StencilCheb
import Verif.Props.StencilLeg
import Verif.Props.StencilChebU
import Verif.Props.StencilUltra
import Verif.Props.StencilJacobi

/-!
# C48: composite bases represent exactly the polynomials that satisfy their boundary conditions
-/

namespace Shenfun

open Polynomial Spec

set_option linter.unusedSimpArgs false
set_option linter.unusedTactic false
set_option linter.unnecessarySeqFocus false
set_option linter.unreachableTactic false

/-! ## Unisolvence of the mixed conditions -/

theorem poly_lt_four {p : ℝ[X]} (h : p.degree < (4 : ℕ)) :
    p = C (p.coeff 0) + C (p.coeff 1) * X + C (p.coeff 2) * X^2 + C (p.coeff 3) * X^3 := by
  have hn : p.natDegree < 4 := by
    by_cases hp : p = 0
    · simp [hp]
    · exact (natDegree_lt_iff_degree_lt hp).2 h
  conv_lhs => rw [p.as_sum_range' 4 hn]
  simp [Finset.sum_range_succ, ← C_mul_X_pow_eq_monomial]

theorem coeff_high {p : ℝ[X]} {m j : ℕ} (h : p.degree < (m : ℕ)) (hj : m ≤ j) : p.coeff j = 0 :=
  coeff_eq_zero_of_degree_lt (h.trans_le (by exact_mod_cast hj))

/-- Decides unisolvence of a list of at most four conditions. -/
macro "unisolvent" : tactic => `(tactic| (
  intro p hp h
  have h4 := poly_lt_four (p := p) (hp.trans_le (by norm_num))
  try have c1 := coeff_high (j := 1) hp (by omega)
  try have c2 := coeff_high (j := 2) hp (by omega)
  try have c3 := coeff_high (j := 3) hp (by omega)
  simp only [Homogeneous, List.forall_mem_cons, Side.pt] at h
  rw [h4] at h
  simp [Function.iterate_succ] at h
  generalize p.coeff 0 = x0 at *
  generalize p.coeff 1 = x1 at *
  generalize p.coeff 2 = x2 at *
  generalize p.coeff 3 = x3 at *
  have e3 : x3 = 0 := by grind
  have e2 : x2 = 0 := by grind
  have e1 : x1 = 0 := by grind
  have e0 : x0 = 0 := by grind
  rw [h4, e0, e1, e2, e3]
  simp))

theorem uni_right : ∀ p : ℝ[X], p.degree < (1 : ℕ) → Homogeneous [(.right, 0)] p → p = 0 := by unisolvent
theorem uni_left : ∀ p : ℝ[X], p.degree < (1 : ℕ) → Homogeneous [(.left, 0)] p → p = 0 := by unisolvent
theorem uni_DN : ∀ p : ℝ[X], p.degree < (2 : ℕ) → Homogeneous [(.left, 0), (.right, 1)] p → p = 0 := by unisolvent
theorem uni_ND : ∀ p : ℝ[X], p.degree < (2 : ℕ) → Homogeneous [(.left, 1), (.right, 0)] p → p = 0 := by unisolvent
theorem uni_UDN : ∀ p : ℝ[X], p.degree < (2 : ℕ) → Homogeneous [(.right, 0), (.right, 1)] p → p = 0 := by unisolvent
theorem uni_LDN : ∀ p : ℝ[X], p.degree < (2 : ℕ) → Homogeneous [(.left, 0), (.left, 1)] p → p = 0 := by unisolvent
theorem uni_beam : ∀ p : ℝ[X], p.degree < (4 : ℕ) →
    Homogeneous [(.left, 0), (.left, 1), (.right, 2), (.right, 3)] p → p = 0 := by unisolvent

/-- Derivative zero at both ends and degree at most two: a constant. -/
theorem neumann_const {p : ℝ[X]} (hp : p.degree < (3 : ℕ)) (h : Homogeneous [(.left, 1), (.right, 1)] p) :
    p = C (p.coeff 0) := by
  have h4 := poly_lt_four (p := p) (hp.trans_le (by norm_num))
  have c3 := coeff_high (j := 3) hp (by omega)
  simp only [Homogeneous, List.forall_mem_cons, Side.pt] at h
  rw [h4] at h
  simp [Function.iterate_succ] at h
  have e1 : p.coeff 1 = 0 := by grind
  have e2 : p.coeff 2 = 0 := by grind
  rw [e1, e2, c3] at h4
  simpa using h4

/-- Neumann bases: the first function is the constant, the others have degree `i + 2`. -/
theorem isBasisFor_neumann {Q : ℕ → ℝ[X]} (hQ : ∀ n, (Q n).degree = n) {st : Stencil}
    (ho : ∀ e ∈ st, e.1 ≤ 2)
    (h0 : basisFunction Q (stencilMatrix st 3 2) 0 = 1)
    (ht : ∀ i : ℕ, 0 < i → ((st.filter fun e => e.1 = 2).map fun e => e.2.at i).sum ≠ 0)
    (hom : ∀ N i, i < N - 2 → Homogeneous [(.left, 1), (.right, 1)] (basisFunction Q (stencilMatrix st N 2) i))
    (N : ℕ) (hN : 3 ≤ N) :
    IsBasisFor [(.left, 1), (.right, 1)] N (N - 2) (basisFunction Q (stencilMatrix st N 2)) := by
  have hd : ∀ i, 1 ≤ i → i < N - 2 → (basisFunction Q (stencilMatrix st N 2) i).degree = (i + 2 : ℕ) := fun i h1 hi =>
    degree_basisFunction hQ st N 2 i hi ho (ht i h1)
  have h0' : basisFunction Q (stencilMatrix st N 2) 0 = 1 := by
    rw [basisFunction_stencil Q st N 2 0 (by omega) ho, ← h0, basisFunction_stencil Q st 3 2 0 (by omega) ho]
  refine ⟨fun i hi => ⟨?_, hom N i hi⟩, ?_⟩
  · rcases Nat.eq_zero_or_pos i with rfl | hpos
    · rw [h0', degree_one]; exact_mod_cast (by omega)
    · rw [hd i hpos hi]; exact_mod_cast (by omega)
  · have h := existsUnique_expansion (bcs := [(.left, 1), (.right, 1)]) (φ := basisFunction Q (stencilMatrix st N 2)) (m := 2)
      (i0 := 1) (n := N - 2) (by omega) hd (hom N) ?_ ?_
    · rwa [Nat.sub_add_cancel (by omega)] at h
    · intro p hp hh
      refine ⟨fun _ => p.coeff 0, ?_, fun d hd' => ?_⟩
      · simp [h0']; exact neumann_const hp hh
      · simp [h0'] at hd'
        funext i
        have : i = 0 := Subsingleton.elim _ _
        subst this
        rw [hd']; simp
    · intro i hi
      obtain rfl : i = 0 := by omega
      rw [h0', degree_one]; exact_mod_cast (by omega)

/-- `cheb.ShenDirichlet`. -/
theorem C48_cheb_ShenDirichlet (N : ℕ) (hN : 2 ≤ N) :
    IsBasisFor (both 1) N (N - 2) (basisFunction chebT (stencilMatrix ChebStencil.ShenDirichlet N 2)) := by
  refine isBasisFor_stencil degree_chebT (by simp [ChebStencil.ShenDirichlet]) (fun i => ?_) (C27_cheb_ShenDirichlet)
    (fun p hp h => both_unisolvent 1 p hp h) N hN
  have hx : (0:ℝ) ≤ (i:ℝ) := Nat.cast_nonneg _
  simp [ChebStencil.ShenDirichlet, SVal.at]
  try (repeat' constructor) <;> try first | positivity | linarith | (intro h; nlinarith)

/-- `cheb.Phi1`. -/
theorem C48_cheb_Phi1 (N : ℕ) (hN : 2 ≤ N) :
    IsBasisFor (both 1) N (N - 2) (basisFunction chebT (stencilMatrix ChebStencil.Phi1 N 2)) := by
  refine isBasisFor_stencil degree_chebT (by simp [ChebStencil.Phi1]) (fun i => ?_) (C27_cheb_Phi1)
    (fun p hp h => both_unisolvent 1 p hp h) N hN
  have hx : (0:ℝ) ≤ (i:ℝ) := Nat.cast_nonneg _
  simp [ChebStencil.Phi1, SVal.at]
  try (repeat' constructor) <;> try first | positivity | linarith | (intro h; nlinarith)

/-- `cheb.ShenBiharmonic`. -/
theorem C48_cheb_ShenBiharmonic (N : ℕ) (hN : 4 ≤ N) :
    IsBasisFor (both 2) N (N - 4) (basisFunction chebT (stencilMatrix ChebStencil.ShenBiharmonic N 4)) := by
  refine isBasisFor_stencil degree_chebT (by simp [ChebStencil.ShenBiharmonic]) (fun i => ?_) (C27_cheb_ShenBiharmonic)
    (fun p hp h => both_unisolvent 2 p hp h) N hN
  have hx : (0:ℝ) ≤ (i:ℝ) := Nat.cast_nonneg _
  simp [ChebStencil.ShenBiharmonic, SVal.at]
  try (repeat' constructor) <;> try first | positivity | linarith | (intro h; nlinarith)

/-- `cheb.Phi2`. -/
theorem C48_cheb_Phi2 (N : ℕ) (hN : 4 ≤ N) :
    IsBasisFor (both 2) N (N - 4) (basisFunction chebT (stencilMatrix ChebStencil.Phi2 N 4)) := by
  refine isBasisFor_stencil degree_chebT (by simp [ChebStencil.Phi2]) (fun i => ?_) (C27_cheb_Phi2)
    (fun p hp h => both_unisolvent 2 p hp h) N hN
  have hx : (0:ℝ) ≤ (i:ℝ) := Nat.cast_nonneg _
  simp [ChebStencil.Phi2, SVal.at]
  try (repeat' constructor) <;> try first | positivity | linarith | (intro h; nlinarith)

/-- `cheb.Phi3`. -/
theorem C48_cheb_Phi3 (N : ℕ) (hN : 6 ≤ N) :
    IsBasisFor (both 3) N (N - 6) (basisFunction chebT (stencilMatrix ChebStencil.Phi3 N 6)) := by
  refine isBasisFor_stencil degree_chebT (by simp [ChebStencil.Phi3]) (fun i => ?_) (C27_cheb_Phi3)
    (fun p hp h => both_unisolvent 3 p hp h) N hN
  have hx : (0:ℝ) ≤ (i:ℝ) := Nat.cast_nonneg _
  simp [ChebStencil.Phi3, SVal.at]
  try (repeat' constructor) <;> try first | positivity | linarith | (intro h; nlinarith)

/-- `cheb.Phi4`. -/
theorem C48_cheb_Phi4 (N : ℕ) (hN : 8 ≤ N) :
    IsBasisFor (both 4) N (N - 8) (basisFunction chebT (stencilMatrix ChebStencil.Phi4 N 8)) := by
  refine isBasisFor_stencil degree_chebT (by simp [ChebStencil.Phi4]) (fun i => ?_) (C27_cheb_Phi4)
    (fun p hp h => both_unisolvent 4 p hp h) N hN
  have hx : (0:ℝ) ≤ (i:ℝ) := Nat.cast_nonneg _
  simp [ChebStencil.Phi4, SVal.at]
  try (repeat' constructor) <;> try first | positivity | linarith | (intro h; nlinarith)

/-- `cheb.Phi6`. -/
theorem C48_cheb_Phi6 (N : ℕ) (hN : 12 ≤ N) :
    IsBasisFor (both 6) N (N - 12) (basisFunction chebT (stencilMatrix ChebStencil.Phi6 N 12)) := by
  refine isBasisFor_stencil degree_chebT (by simp [ChebStencil.Phi6]) (fun i => ?_) (C27_cheb_Phi6)
    (fun p hp h => both_unisolvent 6 p hp h) N hN
  have hx : (0:ℝ) ≤ (i:ℝ) := Nat.cast_nonneg _
  simp [ChebStencil.Phi6, SVal.at]
  try (repeat' constructor) <;> try first | positivity | linarith | (intro h; nlinarith)

/-- `cheb.Compact3`. -/
theorem C48_cheb_Compact3 (N : ℕ) (hN : 6 ≤ N) :
    IsBasisFor (both 3) N (N - 6) (basisFunction chebT (stencilMatrix ChebStencil.Compact3 N 6)) := by
  refine isBasisFor_stencil degree_chebT (by simp [ChebStencil.Compact3]) (fun i => ?_) (C27_cheb_Compact3)
    (fun p hp h => both_unisolvent 3 p hp h) N hN
  have hx : (0:ℝ) ≤ (i:ℝ) := Nat.cast_nonneg _
  simp [ChebStencil.Compact3, SVal.at]
  try (repeat' constructor) <;> try first | positivity | linarith | (intro h; nlinarith)

/-- `cheb.Compact4`. -/
theorem C48_cheb_Compact4 (N : ℕ) (hN : 8 ≤ N) :
    IsBasisFor (both 4) N (N - 8) (basisFunction chebT (stencilMatrix ChebStencil.Compact4 N 8)) := by
  refine isBasisFor_stencil degree_chebT (by simp [ChebStencil.Compact4]) (fun i => ?_) (C27_cheb_Compact4)
    (fun p hp h => both_unisolvent 4 p hp h) N hN
  have hx : (0:ℝ) ≤ (i:ℝ) := Nat.cast_nonneg _
  simp [ChebStencil.Compact4, SVal.at]
  try (repeat' constructor) <;> try first | positivity | linarith | (intro h; nlinarith)

/-- `cheb.ShenNeumann`; for this class the first function is the constant. -/
theorem C48_cheb_ShenNeumann (N : ℕ) (hN : 3 ≤ N) :
    IsBasisFor [(.left, 1), (.right, 1)] N (N - 2) (basisFunction chebT (stencilMatrix ChebStencil.ShenNeumann N 2)) := by
  have q0 : chebT 0 = 1 := by simp [chebT]
  refine isBasisFor_neumann degree_chebT (by simp [ChebStencil.ShenNeumann]) ?_ (fun i hi => ?_) (C27_cheb_ShenNeumann) N hN
  · rw [basisFunction_stencil _ _ _ _ _ (by omega) (by simp [ChebStencil.ShenNeumann])]
    simp [ChebStencil.ShenNeumann, SVal.at, q0]
  have hx : (1:ℝ) ≤ (i:ℝ) := by exact_mod_cast hi
  simp [ChebStencil.ShenNeumann, SVal.at]
  try (repeat' constructor) <;> try (first | positivity | omega | nlinarith)

/-- `cheb.UpperDirichlet`. -/
theorem C48_cheb_UpperDirichlet (N : ℕ) (hN : 1 ≤ N) :
    IsBasisFor [(.right, 0)] N (N - 1) (basisFunction chebT (stencilMatrix ChebStencil.UpperDirichlet N 1)) := by
  refine isBasisFor_stencil degree_chebT (by simp [ChebStencil.UpperDirichlet]) (fun i => ?_) (C27_cheb_UpperDirichlet) uni_right N hN
  have hx : (0:ℝ) ≤ (i:ℝ) := Nat.cast_nonneg _
  simp [ChebStencil.UpperDirichlet, SVal.at]
  try (repeat' constructor) <;> try first | positivity | linarith | (intro h; nlinarith)

/-- `cheb.LowerDirichlet`. -/
theorem C48_cheb_LowerDirichlet (N : ℕ) (hN : 1 ≤ N) :
    IsBasisFor [(.left, 0)] N (N - 1) (basisFunction chebT (stencilMatrix ChebStencil.LowerDirichlet N 1)) := by
  refine isBasisFor_stencil degree_chebT (by simp [ChebStencil.LowerDirichlet]) (fun i => ?_) (C27_cheb_LowerDirichlet) uni_left N hN
  have hx : (0:ℝ) ≤ (i:ℝ) := Nat.cast_nonneg _
  simp [ChebStencil.LowerDirichlet, SVal.at]
  try (repeat' constructor) <;> try first | positivity | linarith | (intro h; nlinarith)

/-- `cheb.DirichletNeumann`. -/
theorem C48_cheb_DirichletNeumann (N : ℕ) (hN : 2 ≤ N) :
    IsBasisFor [(.left, 0), (.right, 1)] N (N - 2) (basisFunction chebT (stencilMatrix ChebStencil.DirichletNeumann N 2)) := by
  refine isBasisFor_stencil degree_chebT (by simp [ChebStencil.DirichletNeumann]) (fun i => ?_) (C27_cheb_DirichletNeumann) uni_DN N hN
  have hx : (0:ℝ) ≤ (i:ℝ) := Nat.cast_nonneg _
  simp [ChebStencil.DirichletNeumann, SVal.at]
  try (repeat' constructor) <;> try first | positivity | linarith | (intro h; nlinarith)

/-- `cheb.NeumannDirichlet`. -/
theorem C48_cheb_NeumannDirichlet (N : ℕ) (hN : 2 ≤ N) :
    IsBasisFor [(.left, 1), (.right, 0)] N (N - 2) (basisFunction chebT (stencilMatrix ChebStencil.NeumannDirichlet N 2)) := by
  refine isBasisFor_stencil degree_chebT (by simp [ChebStencil.NeumannDirichlet]) (fun i => ?_) (C27_cheb_NeumannDirichlet) uni_ND N hN
  have hx : (0:ℝ) ≤ (i:ℝ) := Nat.cast_nonneg _
  simp [ChebStencil.NeumannDirichlet, SVal.at]
  try (repeat' constructor) <;> try first | positivity | linarith | (intro h; nlinarith)

/-- `cheb.UpperDirichletNeumann`. -/
theorem C48_cheb_UpperDirichletNeumann (N : ℕ) (hN : 2 ≤ N) :
    IsBasisFor [(.right, 0), (.right, 1)] N (N - 2) (basisFunction chebT (stencilMatrix ChebStencil.UpperDirichletNeumann N 2)) := by
  refine isBasisFor_stencil degree_chebT (by simp [ChebStencil.UpperDirichletNeumann]) (fun i => ?_) (C27_cheb_UpperDirichletNeumann) uni_UDN N hN
  have hx : (0:ℝ) ≤ (i:ℝ) := Nat.cast_nonneg _
  simp [ChebStencil.UpperDirichletNeumann, SVal.at]
  try (repeat' constructor) <;> try first | positivity | linarith | (intro h; nlinarith)

/-- `cheb.LowerDirichletNeumann`. -/
theorem C48_cheb_LowerDirichletNeumann (N : ℕ) (hN : 2 ≤ N) :
    IsBasisFor [(.left, 0), (.left, 1)] N (N - 2) (basisFunction chebT (stencilMatrix ChebStencil.LowerDirichletNeumann N 2)) := by
  refine isBasisFor_stencil degree_chebT (by simp [ChebStencil.LowerDirichletNeumann]) (fun i => ?_) (C27_cheb_LowerDirichletNeumann) uni_LDN N hN
  have hx : (0:ℝ) ≤ (i:ℝ) := Nat.cast_nonneg _
  simp [ChebStencil.LowerDirichletNeumann, SVal.at]
  try (repeat' constructor) <;> try first | positivity | linarith | (intro h; nlinarith)

/-- `leg.ShenDirichlet`. -/
theorem C48_leg_ShenDirichlet (N : ℕ) (hN : 2 ≤ N) :
    IsBasisFor (both 1) N (N - 2) (basisFunction legP (stencilMatrix LegStencil.ShenDirichlet N 2)) := by
  refine isBasisFor_stencil degree_legP (by simp [LegStencil.ShenDirichlet]) (fun i => ?_) (C27_leg_ShenDirichlet)
    (fun p hp h => both_unisolvent 1 p hp h) N hN
  have hx : (0:ℝ) ≤ (i:ℝ) := Nat.cast_nonneg _
  simp [LegStencil.ShenDirichlet, SVal.at]
  try (repeat' constructor) <;> try first | positivity | linarith | (intro h; nlinarith)

/-- `leg.ShenDirichletScaled`. -/
theorem C48_leg_ShenDirichletScaled (N : ℕ) (hN : 2 ≤ N) :
    IsBasisFor (both 1) N (N - 2) (basisFunction legP (stencilMatrix LegStencil.ShenDirichletScaled N 2)) := by
  refine isBasisFor_stencil degree_legP (by simp [LegStencil.ShenDirichletScaled]) (fun i => ?_) (C27_leg_ShenDirichletScaled)
    (fun p hp h => both_unisolvent 1 p hp h) N hN
  have hx : (0:ℝ) ≤ (i:ℝ) := Nat.cast_nonneg _
  simp [LegStencil.ShenDirichletScaled, SVal.at]
  try (repeat' constructor) <;> try first | positivity | linarith | (intro h; nlinarith)

/-- `leg.Phi1`. -/
theorem C48_leg_Phi1 (N : ℕ) (hN : 2 ≤ N) :
    IsBasisFor (both 1) N (N - 2) (basisFunction legP (stencilMatrix LegStencil.Phi1 N 2)) := by
  refine isBasisFor_stencil degree_legP (by simp [LegStencil.Phi1]) (fun i => ?_) (C27_leg_Phi1)
    (fun p hp h => both_unisolvent 1 p hp h) N hN
  have hx : (0:ℝ) ≤ (i:ℝ) := Nat.cast_nonneg _
  simp [LegStencil.Phi1, SVal.at]
  try (repeat' constructor) <;> try first | positivity | linarith | (intro h; nlinarith)

/-- `leg.ShenBiharmonic`. -/
theorem C48_leg_ShenBiharmonic (N : ℕ) (hN : 4 ≤ N) :
    IsBasisFor (both 2) N (N - 4) (basisFunction legP (stencilMatrix LegStencil.ShenBiharmonic N 4)) := by
  refine isBasisFor_stencil degree_legP (by simp [LegStencil.ShenBiharmonic]) (fun i => ?_) (C27_leg_ShenBiharmonic)
    (fun p hp h => both_unisolvent 2 p hp h) N hN
  have hx : (0:ℝ) ≤ (i:ℝ) := Nat.cast_nonneg _
  simp [LegStencil.ShenBiharmonic, SVal.at]
  try (repeat' constructor) <;> try first | positivity | linarith | (intro h; nlinarith)

/-- `leg.Phi2`. -/
theorem C48_leg_Phi2 (N : ℕ) (hN : 4 ≤ N) :
    IsBasisFor (both 2) N (N - 4) (basisFunction legP (stencilMatrix LegStencil.Phi2 N 4)) := by
  refine isBasisFor_stencil degree_legP (by simp [LegStencil.Phi2]) (fun i => ?_) (C27_leg_Phi2)
    (fun p hp h => both_unisolvent 2 p hp h) N hN
  have hx : (0:ℝ) ≤ (i:ℝ) := Nat.cast_nonneg _
  simp [LegStencil.Phi2, SVal.at]
  try (repeat' constructor) <;> try first | positivity | linarith | (intro h; nlinarith)

/-- `leg.Phi3`. -/
theorem C48_leg_Phi3 (N : ℕ) (hN : 6 ≤ N) :
    IsBasisFor (both 3) N (N - 6) (basisFunction legP (stencilMatrix LegStencil.Phi3 N 6)) := by
  refine isBasisFor_stencil degree_legP (by simp [LegStencil.Phi3]) (fun i => ?_) (C27_leg_Phi3)
    (fun p hp h => both_unisolvent 3 p hp h) N hN
  have hx : (0:ℝ) ≤ (i:ℝ) := Nat.cast_nonneg _
  simp [LegStencil.Phi3, SVal.at]
  try (repeat' constructor) <;> try first | positivity | linarith | (intro h; nlinarith)

/-- `leg.Phi4`. -/
theorem C48_leg_Phi4 (N : ℕ) (hN : 8 ≤ N) :
    IsBasisFor (both 4) N (N - 8) (basisFunction legP (stencilMatrix LegStencil.Phi4 N 8)) := by
  refine isBasisFor_stencil degree_legP (by simp [LegStencil.Phi4]) (fun i => ?_) (C27_leg_Phi4)
    (fun p hp h => both_unisolvent 4 p hp h) N hN
  have hx : (0:ℝ) ≤ (i:ℝ) := Nat.cast_nonneg _
  simp [LegStencil.Phi4, SVal.at]
  try (repeat' constructor) <;> try first | positivity | linarith | (intro h; nlinarith)

/-- `leg.Phi6`. -/
theorem C48_leg_Phi6 (N : ℕ) (hN : 12 ≤ N) :
    IsBasisFor (both 6) N (N - 12) (basisFunction legP (stencilMatrix LegStencil.Phi6 N 12)) := by
  refine isBasisFor_stencil degree_legP (by simp [LegStencil.Phi6]) (fun i => ?_) (C27_leg_Phi6)
    (fun p hp h => both_unisolvent 6 p hp h) N hN
  have hx : (0:ℝ) ≤ (i:ℝ) := Nat.cast_nonneg _
  simp [LegStencil.Phi6, SVal.at]
  try (repeat' constructor) <;> try first | positivity | linarith | (intro h; nlinarith)

/-- `leg.Compact3`. -/
theorem C48_leg_Compact3 (N : ℕ) (hN : 6 ≤ N) :
    IsBasisFor (both 3) N (N - 6) (basisFunction legP (stencilMatrix LegStencil.Compact3 N 6)) := by
  refine isBasisFor_stencil degree_legP (by simp [LegStencil.Compact3]) (fun i => ?_) (C27_leg_Compact3)
    (fun p hp h => both_unisolvent 3 p hp h) N hN
  have hx : (0:ℝ) ≤ (i:ℝ) := Nat.cast_nonneg _
  simp [LegStencil.Compact3, SVal.at]
  try (repeat' constructor) <;> try first | positivity | linarith | (intro h; nlinarith)

/-- `leg.ShenNeumann`; for this class the first function is the constant. -/
theorem C48_leg_ShenNeumann (N : ℕ) (hN : 3 ≤ N) :
    IsBasisFor [(.left, 1), (.right, 1)] N (N - 2) (basisFunction legP (stencilMatrix LegStencil.ShenNeumann N 2)) := by
  have q0 : legP 0 = 1 := by exact jacobi_zero 0 0
  refine isBasisFor_neumann degree_legP (by simp [LegStencil.ShenNeumann]) ?_ (fun i hi => ?_) (C27_leg_ShenNeumann) N hN
  · rw [basisFunction_stencil _ _ _ _ _ (by omega) (by simp [LegStencil.ShenNeumann])]
    simp [LegStencil.ShenNeumann, SVal.at, q0]
  have hx : (1:ℝ) ≤ (i:ℝ) := by exact_mod_cast hi
  simp [LegStencil.ShenNeumann, SVal.at]
  try (repeat' constructor) <;> try (first | positivity | omega | nlinarith)

/-- `leg.UpperDirichlet`. -/
theorem C48_leg_UpperDirichlet (N : ℕ) (hN : 1 ≤ N) :
    IsBasisFor [(.right, 0)] N (N - 1) (basisFunction legP (stencilMatrix LegStencil.UpperDirichlet N 1)) := by
  refine isBasisFor_stencil degree_legP (by simp [LegStencil.UpperDirichlet]) (fun i => ?_) (C27_leg_UpperDirichlet) uni_right N hN
  have hx : (0:ℝ) ≤ (i:ℝ) := Nat.cast_nonneg _
  simp [LegStencil.UpperDirichlet, SVal.at]
  try (repeat' constructor) <;> try first | positivity | linarith | (intro h; nlinarith)

/-- `leg.LowerDirichlet`. -/
theorem C48_leg_LowerDirichlet (N : ℕ) (hN : 1 ≤ N) :
    IsBasisFor [(.left, 0)] N (N - 1) (basisFunction legP (stencilMatrix LegStencil.LowerDirichlet N 1)) := by
  refine isBasisFor_stencil degree_legP (by simp [LegStencil.LowerDirichlet]) (fun i => ?_) (C27_leg_LowerDirichlet) uni_left N hN
  have hx : (0:ℝ) ≤ (i:ℝ) := Nat.cast_nonneg _
  simp [LegStencil.LowerDirichlet, SVal.at]
  try (repeat' constructor) <;> try first | positivity | linarith | (intro h; nlinarith)

/-- `leg.DirichletNeumann`. -/
theorem C48_leg_DirichletNeumann (N : ℕ) (hN : 2 ≤ N) :
    IsBasisFor [(.left, 0), (.right, 1)] N (N - 2) (basisFunction legP (stencilMatrix LegStencil.DirichletNeumann N 2)) := by
  refine isBasisFor_stencil degree_legP (by simp [LegStencil.DirichletNeumann]) (fun i => ?_) (C27_leg_DirichletNeumann) uni_DN N hN
  have hx : (0:ℝ) ≤ (i:ℝ) := Nat.cast_nonneg _
  simp [LegStencil.DirichletNeumann, SVal.at]
  try (repeat' constructor) <;> try first | positivity | linarith | (intro h; nlinarith)

/-- `leg.NeumannDirichlet`. -/
theorem C48_leg_NeumannDirichlet (N : ℕ) (hN : 2 ≤ N) :
    IsBasisFor [(.left, 1), (.right, 0)] N (N - 2) (basisFunction legP (stencilMatrix LegStencil.NeumannDirichlet N 2)) := by
  refine isBasisFor_stencil degree_legP (by simp [LegStencil.NeumannDirichlet]) (fun i => ?_) (C27_leg_NeumannDirichlet) uni_ND N hN
  have hx : (0:ℝ) ≤ (i:ℝ) := Nat.cast_nonneg _
  simp [LegStencil.NeumannDirichlet, SVal.at]
  try (repeat' constructor) <;> try first | positivity | linarith | (intro h; nlinarith)

/-- `leg.UpperDirichletNeumann`. -/
theorem C48_leg_UpperDirichletNeumann (N : ℕ) (hN : 2 ≤ N) :
    IsBasisFor [(.right, 0), (.right, 1)] N (N - 2) (basisFunction legP (stencilMatrix LegStencil.UpperDirichletNeumann N 2)) := by
  refine isBasisFor_stencil degree_legP (by simp [LegStencil.UpperDirichletNeumann]) (fun i => ?_) (C27_leg_UpperDirichletNeumann) uni_UDN N hN
  have hx : (0:ℝ) ≤ (i:ℝ) := Nat.cast_nonneg _
  simp [LegStencil.UpperDirichletNeumann, SVal.at]
  try (repeat' constructor) <;> try first | positivity | linarith | (intro h; nlinarith)

/-- `leg.BeamFixedFree`. -/
theorem C48_leg_BeamFixedFree (N : ℕ) (hN : 4 ≤ N) :
    IsBasisFor [(.left, 0), (.left, 1), (.right, 2), (.right, 3)] N (N - 4) (basisFunction legP (stencilMatrix LegStencil.BeamFixedFree N 4)) := by
  refine isBasisFor_stencil degree_legP (by simp [LegStencil.BeamFixedFree]) (fun i => ?_) (C27_leg_BeamFixedFree) uni_beam N hN
  have hx : (0:ℝ) ≤ (i:ℝ) := Nat.cast_nonneg _
  simp [LegStencil.BeamFixedFree, SVal.at]
  try (repeat' constructor) <;> try first | positivity | linarith | (intro h; nlinarith)

/-- `chebu.Phi1`. -/
theorem C48_chebu_Phi1 (N : ℕ) (hN : 2 ≤ N) :
    IsBasisFor (both 1) N (N - 2) (basisFunction chebU (stencilMatrix ChebUStencil.Phi1 N 2)) := by
  refine isBasisFor_stencil degree_chebU (by simp [ChebUStencil.Phi1]) (fun i => ?_) (C27_chebu_Phi1)
    (fun p hp h => both_unisolvent 1 p hp h) N hN
  have hx : (0:ℝ) ≤ (i:ℝ) := Nat.cast_nonneg _
  simp [ChebUStencil.Phi1, SVal.at]
  try (repeat' constructor) <;> try first | positivity | linarith | (intro h; nlinarith)

/-- `chebu.Phi1Scaled`. -/
theorem C48_chebu_Phi1Scaled (N : ℕ) (hN : 2 ≤ N) :
    IsBasisFor (both 1) N (N - 2) (basisFunction chebU (stencilMatrix ChebUStencil.Phi1Scaled N 2)) := by
  refine isBasisFor_stencil degree_chebU (by simp [ChebUStencil.Phi1Scaled]) (fun i => ?_) (C27_chebu_Phi1Scaled)
    (fun p hp h => both_unisolvent 1 p hp h) N hN
  have hx : (0:ℝ) ≤ (i:ℝ) := Nat.cast_nonneg _
  simp [ChebUStencil.Phi1Scaled, SVal.at]
  try (repeat' constructor) <;> try first | positivity | linarith | (intro h; nlinarith)

/-- `chebu.Phi2`. -/
theorem C48_chebu_Phi2 (N : ℕ) (hN : 4 ≤ N) :
    IsBasisFor (both 2) N (N - 4) (basisFunction chebU (stencilMatrix ChebUStencil.Phi2 N 4)) := by
  refine isBasisFor_stencil degree_chebU (by simp [ChebUStencil.Phi2]) (fun i => ?_) (C27_chebu_Phi2)
    (fun p hp h => both_unisolvent 2 p hp h) N hN
  have hx : (0:ℝ) ≤ (i:ℝ) := Nat.cast_nonneg _
  simp [ChebUStencil.Phi2, SVal.at]
  try (repeat' constructor) <;> try first | positivity | linarith | (intro h; nlinarith)

/-- `chebu.Phi2Scaled`. -/
theorem C48_chebu_Phi2Scaled (N : ℕ) (hN : 4 ≤ N) :
    IsBasisFor (both 2) N (N - 4) (basisFunction chebU (stencilMatrix ChebUStencil.Phi2Scaled N 4)) := by
  refine isBasisFor_stencil degree_chebU (by simp [ChebUStencil.Phi2Scaled]) (fun i => ?_) (C27_chebu_Phi2Scaled)
    (fun p hp h => both_unisolvent 2 p hp h) N hN
  have hx : (0:ℝ) ≤ (i:ℝ) := Nat.cast_nonneg _
  simp [ChebUStencil.Phi2Scaled, SVal.at]
  try (repeat' constructor) <;> try first | positivity | linarith | (intro h; nlinarith)

/-- `chebu.Phi3`. -/
theorem C48_chebu_Phi3 (N : ℕ) (hN : 6 ≤ N) :
    IsBasisFor (both 3) N (N - 6) (basisFunction chebU (stencilMatrix ChebUStencil.Phi3 N 6)) := by
  refine isBasisFor_stencil degree_chebU (by simp [ChebUStencil.Phi3]) (fun i => ?_) (C27_chebu_Phi3)
    (fun p hp h => both_unisolvent 3 p hp h) N hN
  have hx : (0:ℝ) ≤ (i:ℝ) := Nat.cast_nonneg _
  simp [ChebUStencil.Phi3, SVal.at]
  try (repeat' constructor) <;> try first | positivity | linarith | (intro h; nlinarith)

/-- `chebu.Phi4`. -/
theorem C48_chebu_Phi4 (N : ℕ) (hN : 8 ≤ N) :
    IsBasisFor (both 4) N (N - 8) (basisFunction chebU (stencilMatrix ChebUStencil.Phi4 N 8)) := by
  refine isBasisFor_stencil degree_chebU (by simp [ChebUStencil.Phi4]) (fun i => ?_) (C27_chebu_Phi4)
    (fun p hp h => both_unisolvent 4 p hp h) N hN
  have hx : (0:ℝ) ≤ (i:ℝ) := Nat.cast_nonneg _
  simp [ChebUStencil.Phi4, SVal.at]
  try (repeat' constructor) <;> try first | positivity | linarith | (intro h; nlinarith)

/-- `chebu.Phi6`. -/
theorem C48_chebu_Phi6 (N : ℕ) (hN : 12 ≤ N) :
    IsBasisFor (both 6) N (N - 12) (basisFunction chebU (stencilMatrix ChebUStencil.Phi6 N 12)) := by
  refine isBasisFor_stencil degree_chebU (by simp [ChebUStencil.Phi6]) (fun i => ?_) (C27_chebu_Phi6)
    (fun p hp h => both_unisolvent 6 p hp h) N hN
  have hx : (0:ℝ) ≤ (i:ℝ) := Nat.cast_nonneg _
  simp [ChebUStencil.Phi6, SVal.at]
  try (repeat' constructor) <;> try first | positivity | linarith | (intro h; nlinarith)

/-- `chebu.CompactDirichlet`. -/
theorem C48_chebu_CompactDirichlet (N : ℕ) (hN : 2 ≤ N) :
    IsBasisFor (both 1) N (N - 2) (basisFunction chebU (stencilMatrix ChebUStencil.CompactDirichlet N 2)) := by
  refine isBasisFor_stencil degree_chebU (by simp [ChebUStencil.CompactDirichlet]) (fun i => ?_) (C27_chebu_CompactDirichlet)
    (fun p hp h => both_unisolvent 1 p hp h) N hN
  have hx : (0:ℝ) ≤ (i:ℝ) := Nat.cast_nonneg _
  simp [ChebUStencil.CompactDirichlet, SVal.at]
  try (repeat' constructor) <;> try first | positivity | linarith | (intro h; nlinarith)

/-- `chebu.CompactDirichletScaled`. -/
theorem C48_chebu_CompactDirichletScaled (N : ℕ) (hN : 2 ≤ N) :
    IsBasisFor (both 1) N (N - 2) (basisFunction chebU (stencilMatrix ChebUStencil.CompactDirichletScaled N 2)) := by
  refine isBasisFor_stencil degree_chebU (by simp [ChebUStencil.CompactDirichletScaled]) (fun i => ?_) (C27_chebu_CompactDirichletScaled)
    (fun p hp h => both_unisolvent 1 p hp h) N hN
  have hx : (0:ℝ) ≤ (i:ℝ) := Nat.cast_nonneg _
  simp [ChebUStencil.CompactDirichletScaled, SVal.at]
  try (repeat' constructor) <;> try first | positivity | linarith | (intro h; nlinarith)

/-- `chebu.CompactBiharmonic`. -/
theorem C48_chebu_CompactBiharmonic (N : ℕ) (hN : 4 ≤ N) :
    IsBasisFor (both 2) N (N - 4) (basisFunction chebU (stencilMatrix ChebUStencil.CompactBiharmonic N 4)) := by
  refine isBasisFor_stencil degree_chebU (by simp [ChebUStencil.CompactBiharmonic]) (fun i => ?_) (C27_chebu_CompactBiharmonic)
    (fun p hp h => both_unisolvent 2 p hp h) N hN
  have hx : (0:ℝ) ≤ (i:ℝ) := Nat.cast_nonneg _
  simp [ChebUStencil.CompactBiharmonic, SVal.at]
  try (repeat' constructor) <;> try first | positivity | linarith | (intro h; nlinarith)

/-- `chebu.Compact3`. -/
theorem C48_chebu_Compact3 (N : ℕ) (hN : 6 ≤ N) :
    IsBasisFor (both 3) N (N - 6) (basisFunction chebU (stencilMatrix ChebUStencil.Compact3 N 6)) := by
  refine isBasisFor_stencil degree_chebU (by simp [ChebUStencil.Compact3]) (fun i => ?_) (C27_chebu_Compact3)
    (fun p hp h => both_unisolvent 3 p hp h) N hN
  have hx : (0:ℝ) ≤ (i:ℝ) := Nat.cast_nonneg _
  simp [ChebUStencil.Compact3, SVal.at]
  try (repeat' constructor) <;> try first | positivity | linarith | (intro h; nlinarith)

/-- `chebu.CompactNeumann`; for this class the first function is the constant. -/
theorem C48_chebu_CompactNeumann (N : ℕ) (hN : 3 ≤ N) :
    IsBasisFor [(.left, 1), (.right, 1)] N (N - 2) (basisFunction chebU (stencilMatrix ChebUStencil.CompactNeumann N 2)) := by
  have q0 : chebU 0 = 1 := by simp [chebU]
  refine isBasisFor_neumann degree_chebU (by simp [ChebUStencil.CompactNeumann]) ?_ (fun i hi => ?_) (C27_chebu_CompactNeumann) N hN
  · rw [basisFunction_stencil _ _ _ _ _ (by omega) (by simp [ChebUStencil.CompactNeumann])]
    simp [ChebUStencil.CompactNeumann, SVal.at, q0]
  have hx : (1:ℝ) ≤ (i:ℝ) := by exact_mod_cast hi
  simp [ChebUStencil.CompactNeumann, SVal.at]
  try (repeat' constructor) <;> try (first | positivity | omega | nlinarith)

/-- `chebu.UpperDirichlet`. -/
theorem C48_chebu_UpperDirichlet (N : ℕ) (hN : 1 ≤ N) :
    IsBasisFor [(.right, 0)] N (N - 1) (basisFunction chebU (stencilMatrix ChebUStencil.UpperDirichlet N 1)) := by
  refine isBasisFor_stencil degree_chebU (by simp [ChebUStencil.UpperDirichlet]) (fun i => ?_) (C27_chebu_UpperDirichlet) uni_right N hN
  have hx : (0:ℝ) ≤ (i:ℝ) := Nat.cast_nonneg _
  simp [ChebUStencil.UpperDirichlet, SVal.at]
  try (repeat' constructor) <;> try first | positivity | linarith | (intro h; nlinarith)

/-! ## Concrete cases -/

example : Homogeneous (both 2) (basisFunction chebT (stencilMatrix ChebStencil.ShenBiharmonic 8 4) 3) :=
  C27_cheb_ShenBiharmonic 8 3 (by omega)

/-- `1 - X^2` is in the Dirichlet space, so it has exactly one expansion. -/
example : ∃! c : Fin 6 → ℝ, (1 - X^2 : ℝ[X]) = ∑ i, C (c i) * basisFunction chebT (stencilMatrix ChebStencil.ShenDirichlet 8 2) i := by
  refine (C48_cheb_ShenDirichlet 8 (by omega)).2 _ ?_ ?_
  · refine (degree_sub_le _ _).trans_lt (max_lt ?_ ?_)
    · rw [degree_one]; norm_num
    · rw [degree_X_pow]; norm_num
  · intro bc hbc
    fin_cases hbc <;> simp [Side.pt]

end Shenfun
