import Verif.Model.GaussTransforms
import Verif.Props.ChebQuadrature
import Verif.Lemmas.LegIP
import Verif.Lemmas.StencilBasis
import Mathlib.LinearAlgebra.Lagrange

/-!
# C63: quadrature-based transforms of the Jacobi families
-/

namespace Shenfun

open Real Spec Polynomial

variable {E : Type*} [AddCommGroup E] [Module ℝ E]

/-- The first `N` functions are orthogonal for the rule with `M` points, with squared norms `g`. -/
def DiscreteNorms (x w : ℕ → ℝ) (M N : ℕ) (Q : ℕ → ℝ[X]) (g : ℕ → ℝ) : Prop :=
  ∀ k < N, ∀ m < N, ∑ j ∈ Finset.range M, w j * ((Q k).eval (x j) * (Q m).eval (x j)) = if k = m then g k else 0

/-- **C63** With a rule exact up to degree `2N-2` the basis is orthogonal for the quadrature and the discrete norms are the
continuous ones: `l2_norm_sq = L2_norm_sq`. -/
theorem C63_norms {a b : ℝ} {x w : ℕ → ℝ} {M N D : ℕ} {Q : ℕ → ℝ[X]} {h : ℕ → ℝ} (hx : ExactRule a b x w M D)
    (hD : 2 * N - 1 ≤ D) (hO : OrthogonalWith a b Q h) (hQ : ∀ n, (Q n).degree = n) : DiscreteNorms x w M N Q h := by
  intro k hk m hm
  have hd : (Q k * Q m).degree < D := by
    rw [degree_mul, hQ, hQ]
    exact_mod_cast (by omega : k + m < D)
  have := hx (Q k * Q m) hd
  simp only [eval_mul] at this
  rw [this, hO k m]
  split_ifs with e
  · rw [e]
  · rfl

/-- **C63** `forward(backward(û)) = û`, with any number `M` of points. -/
theorem C63_forward_backward {x w : ℕ → ℝ} {M N : ℕ} {Q : ℕ → ℝ[X]} {h : ℕ → ℝ} (hG : DiscreteNorms x w M N Q h) (df : ℝ)
    (hdf : df ≠ 0) (hh : ∀ k < N, h k ≠ 0) (u : ℕ → E) (k : ℕ) (hk : k < N) :
    vanderForward x w Q h df M (vanderBackward x Q N u) k = u k := by
  unfold vanderForward vanderScalar vanderBackward
  rw [Finset.sum_congr rfl fun j _ => smul_smul _ _ _, sum_smul_sum_smul,
    Finset.sum_congr rfl (g := fun m => ((if k = m then h k else 0) / df) • u m) fun m hm => by
      rw [← hG k hk m (Finset.mem_range.1 hm), Finset.sum_div]
      congr 1
      exact Finset.sum_congr rfl fun j _ => by ring]
  rw [Finset.sum_eq_single k (fun m _ hne => by rw [if_neg (Ne.symm hne), zero_div, zero_smul])
    (fun h => absurd (Finset.mem_range.2 hk) h), if_pos rfl, smul_smul]
  have := hh k hk
  rw [show (h k * df⁻¹)⁻¹ * (h k / df) = 1 by field_simp, one_smul]

/-- The kernel `Σ_k Q_k(x_i) Q_k(x_j) w_j/h_k` of a rule with as many points as coefficients is the identity. -/
theorem kernel_eq_one {x w : ℕ → ℝ} {N : ℕ} {Q : ℕ → ℝ[X]} {h : ℕ → ℝ} (hG : DiscreteNorms x w N N Q h)
    (hh : ∀ k < N, h k ≠ 0) (i j : ℕ) (hi : i < N) (hj : j < N) :
    ∑ k ∈ Finset.range N, (Q k).eval (x i) * (w j * (Q k).eval (x j) / h k) = if i = j then 1 else 0 := by
  refine range_mul_eq_one_comm (F := fun k j => w j * (Q k).eval (x j) / h k) (B := fun j k => (Q k).eval (x j)) ?_ i j hi hj
  intro k hk m hm
  rw [Finset.sum_congr rfl (g := fun j => (h k)⁻¹ * (w j * ((Q k).eval (x j) * (Q m).eval (x j)))) fun j _ => by ring,
    ← Finset.mul_sum, hG k hk m hm]
  split_ifs
  · exact inv_mul_cancel₀ (hh k hk)
  · exact mul_zero _

/-- **C63** With as many points as coefficients the series computed by `forward` takes the given values at the points. -/
theorem C63_backward_forward {x w : ℕ → ℝ} {N : ℕ} {Q : ℕ → ℝ[X]} {h : ℕ → ℝ} (hG : DiscreteNorms x w N N Q h) (df : ℝ)
    (hdf : df ≠ 0) (hh : ∀ k < N, h k ≠ 0) (u : ℕ → E) (j : ℕ) (hj : j < N) :
    vanderBackward x Q N (vanderForward x w Q h df N u) j = u j := by
  unfold vanderForward vanderScalar vanderBackward
  simp only [Finset.smul_sum, smul_smul]
  rw [Finset.sum_comm]
  simp only [← Finset.sum_smul]
  rw [Finset.sum_congr rfl (g := fun i => (if j = i then (1:ℝ) else 0) • u i) fun i hi => by
    rw [← kernel_eq_one hG hh j i hj (Finset.mem_range.1 hi)]
    congr 1
    refine Finset.sum_congr rfl fun k hk => ?_
    have := hh k (Finset.mem_range.1 hk)
    field_simp]
  simp only [ite_smul, one_smul, zero_smul, Finset.sum_ite_eq, Finset.mem_range, if_pos hj]

/-- **C63** `forward` of the values of a polynomial of degree below `N` returns its coefficients in the basis. -/
theorem C63_interpolation {x w : ℕ → ℝ} {M N : ℕ} {Q : ℕ → ℝ[X]} {h : ℕ → ℝ} (hG : DiscreteNorms x w M N Q h) (df : ℝ)
    (hdf : df ≠ 0) (hh : ∀ k < N, h k ≠ 0) (hQ : ∀ n, (Q n).degree = n) (p : ℝ[X]) (hp : p.degree < N) :
    ∑ k ∈ Finset.range N, C (vanderForward x w Q h df M (fun j => p.eval (x j)) k) * Q k = p := by
  obtain ⟨c, hc⟩ := exists_expansion hQ N p hp
  have e : (fun j => p.eval (x j)) = vanderBackward x Q N c := by
    funext j
    rw [hc, eval_finsetSum]
    unfold vanderBackward
    exact Finset.sum_congr rfl fun m _ => by rw [eval_mul, eval_C, smul_eq_mul, mul_comm]
  rw [e]
  conv_rhs => rw [hc]
  exact Finset.sum_congr rfl fun k hk => by rw [C63_forward_backward hG df hdf hh c k (Finset.mem_range.1 hk)]

/-- **C63** `unweighted_quadrature_weights`: the rule with the new weights integrates every polynomial of degree below `N`
without weight. -/
theorem C63_unweighted {x w : ℕ → ℝ} {M N : ℕ} {Q : ℕ → ℝ[X]} {h : ℕ → ℝ} (hG : DiscreteNorms x w M N Q h)
    (hh : ∀ k < N, h k ≠ 0) (hQ : ∀ n, (Q n).degree = n) (h0 : Q 0 = 1) :
    ExactRule 0 0 x (unweightedWeights x w Q h N) M N := by
  intro p hp
  have hi := C63_interpolation hG 1 one_ne_zero hh hQ p hp
  conv_rhs => rw [← hi, wInt_sum (by norm_num) (by norm_num)]
  simp only [wInt_C_mul, vanderForward, vanderScalar, unweightedWeights, Finset.sum_mul, smul_eq_mul, Finset.mul_sum]
  rw [Finset.sum_comm]
  refine Finset.sum_congr rfl fun k _ => Finset.sum_congr rfl fun j _ => ?_
  have hI : (if k = 0 then 2 else ∫ t in (-1:ℝ)..1, (Q k).eval t) = wInt 0 0 (Q k) := by
    rw [wInt_zero_zero]
    split_ifs with hk
    · rw [hk, h0]; norm_num
    · rfl
  rw [hI]
  simp only [inv_one, mul_one, div_one]
  ring

/-- **C63** `lagrange_poly(i)` is the Lagrange polynomial of the quadrature points: degree below `N`, one at `x_i` and zero
at the other points. -/
theorem C63_lagrange {x w : ℕ → ℝ} {N : ℕ} {Q : ℕ → ℝ[X]} {h : ℕ → ℝ} (hG : DiscreteNorms x w N N Q h)
    (hh : ∀ k < N, h k ≠ 0) (hQ : ∀ n, (Q n).degree = n) (h0 : Q 0 = 1) (i : ℕ) (hi : i < N) :
    (lagrangePoly x w Q h N i).degree < N ∧
    ∀ j < N, (lagrangePoly x w Q h N i).eval (x j) = if i = j then 1 else 0 := by
  have e : lagrangePoly x w Q h N i = ∑ k ∈ Finset.range N, C ((Q k).eval (x i) / h k * w i) * Q k := by
    unfold lagrangePoly
    rw [Finset.sum_mul]
    refine Finset.sum_congr rfl fun k _ => ?_
    rw [show (if k = 0 then (1 : ℝ[X]) else Q k) = Q k by split_ifs with hk; rw [hk, h0]; rfl, C_mul]
    ring
  refine ⟨?_, fun j hj => ?_⟩
  · rw [e, ← mem_degreeLT]
    refine Submodule.sum_mem _ fun k hk => ?_
    rw [← smul_eq_C_mul]
    refine Submodule.smul_mem _ _ ?_
    rw [mem_degreeLT, hQ]
    exact_mod_cast Finset.mem_range.1 hk
  · rw [e, eval_finsetSum]
    have := kernel_eq_one hG hh j i hj hi
    rw [show (if i = j then (1:ℝ) else 0) = if j = i then 1 else 0 by simp only [eq_comm], ← this]
    exact Finset.sum_congr rfl fun k _ => by rw [eval_mul, eval_C]; ring

end Shenfun
