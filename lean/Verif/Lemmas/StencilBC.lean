import Verif.Lemmas.Stencil
import Verif.Spec.Boundary

/-!
# From stencils to boundary conditions
-/

namespace Shenfun

open Polynomial Spec

set_option linter.unusedSimpArgs false

theorem homogeneous_of_sums {Q : ℕ → ℝ[X]} {st : Stencil} {N nbc i : ℕ} (hi : i < N - nbc)
    (ho : ∀ e ∈ st, e.1 ≤ nbc) (bcs : List (Side × ℕ))
    (h : ∀ bc ∈ bcs, (st.map fun e => e.2.at i * (derivative^[bc.2] (Q (i + e.1))).eval bc.1.pt).sum = 0) :
    Homogeneous bcs (basisFunction Q (stencilMatrix st N nbc) i) := fun bc hbc => by
  rw [derivative_basisFunction Q st N nbc i _ _ hi ho]
  exact h bc hbc

/-- For families with parity and stencils with even offsets the conditions at the left end are those at the right
end, up to sign. -/
theorem homogeneous_both {Q : ℕ → ℝ[X]} {R : ℕ → ℕ → ℝ}
    (hR : ∀ n k, (derivative^[k] (Q n)).eval 1 = R n k)
    (hL : ∀ n k, (derivative^[k] (Q n)).eval (-1) = (-1)^(n+k) * R n k)
    {st : Stencil} {N nbc i : ℕ} (hi : i < N - nbc) (ho : ∀ e ∈ st, e.1 ≤ nbc) (he : ∀ e ∈ st, Even e.1)
    (ks : List ℕ) (h : ∀ k ∈ ks, (st.map fun e => e.2.at i * R (i + e.1) k).sum = 0) :
    Homogeneous (ks.map (fun k => (Side.left, k)) ++ ks.map (fun k => (Side.right, k)))
      (basisFunction Q (stencilMatrix st N nbc) i) := by
  refine homogeneous_of_sums hi ho _ fun bc hbc => ?_
  rcases List.mem_append.1 hbc with hbc | hbc <;> obtain ⟨k, hk, rfl⟩ := List.mem_map.1 hbc
  · have key : ∀ e ∈ st, e.2.at i * (derivative^[k] (Q (i + e.1))).eval (-1) =
        (-1)^(i+k) * (e.2.at i * R (i + e.1) k) := fun e hst => by
      rw [hL]
      obtain ⟨m, hm⟩ := he e hst
      have : ((-1:ℝ))^(i + e.1 + k) = (-1)^(i+k) := by
        rw [show i + e.1 + k = (i + k) + 2 * m by omega, pow_add, pow_mul]; simp
      rw [this]; ring
    show (st.map fun e => e.2.at i * (derivative^[k] (Q (i + e.1))).eval (-1)).sum = 0
    rw [List.map_congr_left key, List.sum_map_mul_left, h k hk, mul_zero]
  · show (st.map fun e => e.2.at i * (derivative^[k] (Q (i + e.1))).eval 1).sum = 0
    simp only [hR]
    exact h k hk

/-- Expands the sums of a stencil against boundary factors and closes the rational identity. -/
macro "stencil_sum" "[" ls:Lean.Parser.Tactic.simpLemma,* "]" : tactic =>
  `(tactic| (simp [SVal.at, bndFactor, Finset.prod_range_succ, $ls,*]; try (field_simp; ring)))

/-- The same with the sign `(-1)^i` of the left end, for stencils with odd offsets. -/
macro "stencil_asum" "[" ls:Lean.Parser.Tactic.simpLemma,* "]" : tactic =>
  `(tactic| (simp [SVal.at, bndFactor, Finset.prod_range_succ, pow_add, $ls,*]; try (field_simp; ring)))

end Shenfun
