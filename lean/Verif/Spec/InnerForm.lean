import Verif.Model.InnerForm

/-!
# Specification: weighted inner products of expressions by tensor product quadrature

`S p a d i k` is the `d`-th derivative of test function `i` of component `p` along axis `a` at the quadrature point `k`,
conjugated and times the weight; `E q a d k j` the same of trial function `j` of component `q` without weight.
-/

namespace Shenfun.InnerForm

variable {K : Type*} [Field K] {D : ℕ}

/-- Points and basis functions along all axes. -/
structure Rule (D : ℕ) (K : Type*) where
  nq : Fin D → ℕ
  pts : Fin D → ℕ → K
  S : ℕ → Fin D → ℕ → ℕ → ℕ → K
  E : ℕ → Fin D → ℕ → ℕ → ℕ → K

/-- The quadrature point with multi-index `k`. -/
def Rule.pt (R : Rule D K) (k : Fin D → ℕ) : Fin D → K := fun a => R.pts a (k a)

/-- Component `i` of an expression of the test function that is basis function `I` in component `p` and zero in the
others, at a quadrature point, times the weight. -/
def Rule.testVal (R : Rule D K) (e : FExpr (Fn D K) D) (i p : ℕ) (I k : Fin D → ℕ) : K :=
  ((e.getD i []).map fun t => if t.ind = p then t.scale (R.pt k) * ∏ a, R.S p a (t.der a) (I a) (k a) else 0).sum

/-- Component `j` of an expression of the trial function that is basis function `J` in component `q` and zero in the
others, at a quadrature point. -/
def Rule.trialVal (R : Rule D K) (e : FExpr (Fn D K) D) (j q : ℕ) (J k : Fin D → ℕ) : K :=
  ((e.getD j []).map fun t => if t.ind = q then t.scale (R.pt k) * ∏ a, R.E q a (t.der a) (k a) (J a) else 0).sum

/-- The weighted inner product: the sum over all quadrature points of `sqrt(det g)` times the metric pairing of the two
expressions. -/
def Rule.form (R : Rule D K) (sg : Fn D K) (G : ℕ → ℕ → Fn D K) (test trial : FExpr (Fn D K) D) (p q : ℕ)
    (I J : Fin D → ℕ) : K :=
  ∑ k ∈ Fintype.piFinset fun a => Finset.range (R.nq a), sg (R.pt k) *
    ∑ i ∈ Finset.range test.length, ∑ j ∈ Finset.range trial.length,
      G i j (R.pt k) * R.testVal test i p I k * R.trialVal trial j q J k

/-- Component `j` of an expression of the function with coefficients `uh` (`Q` components), at a quadrature point. -/
def Rule.field (R : Rule D K) (size : ℕ → Fin D → ℕ) (Q : ℕ) (e : FExpr (Fn D K) D) (uh : ℕ → Arr D K) (j : ℕ)
    (k : Fin D → ℕ) : K :=
  ∑ q ∈ Finset.range Q, ∑ J ∈ Fintype.piFinset fun a => Finset.range (size q a), R.trialVal e j q J k * uh q J

/-- The inner product of test function `I` of component `p`, in an expression, with an expression of a function. -/
def Rule.pairing (R : Rule D K) (sg : Fn D K) (G : ℕ → ℕ → Fn D K) (size : ℕ → Fin D → ℕ) (Q : ℕ)
    (test trial : FExpr (Fn D K) D) (uh : ℕ → Arr D K) (p : ℕ) (I : Fin D → ℕ) : K :=
  ∑ k ∈ Fintype.piFinset fun a => Finset.range (R.nq a), sg (R.pt k) *
    ∑ i ∈ Finset.range test.length, ∑ j ∈ Finset.range trial.length,
      G i j (R.pt k) * R.testVal test i p I k * R.field size Q trial uh j k

end Shenfun.InnerForm
