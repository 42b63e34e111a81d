import Verif.Model.Forms

/-!
# Specification: functions, partial derivatives and values of expressions

Functions of `n` coordinates are elements of a commutative ring with `n` commuting derivations (for instance the smooth
functions on `ℝ^n`, see `Verif.Lemmas.Smooth`).
-/

namespace Shenfun.Spec

variable {R : Type*} [CommRing R] {n m : ℕ}

/-- The partial derivatives with respect to different coordinates commute. -/
def Commuting (D : Fin n → Derivation ℤ R R) : Prop := ∀ i j f, D i (D j f) = D j (D i f)

/-- The mixed partial derivative of order `α`. -/
def mixed (D : Fin n → Derivation ℤ R R) (α : Fin n → ℕ) (f : R) : R :=
  (List.finRange n).foldr (fun i h => (D i)^[α i] h) f

/-- The value of one tensor component of an expression when the components of the basis function are `u`. -/
def compVal (D : Fin n → Derivation ℤ R R) (u : ℕ → R) (c : List (FTerm R n)) : R :=
  (c.map fun t => t.scale * mixed D t.der (u t.ind)).sum

/-- The value of component `i` of an expression. -/
def value (D : Fin n → Derivation ℤ R R) (u : ℕ → R) (e : FExpr R n) (i : ℕ) : R := compVal D u (e.getD i [])

/-- `∂ a` is the partial derivative with respect to the Cartesian coordinate `x a`: the chain rule
`D i f = Σ_a (D i (x a)) (∂ a f)` holds. -/
def ChainRule (D : Fin n → Derivation ℤ R R) (x : Fin m → R) (d : Fin m → Derivation ℤ R R) : Prop :=
  ∀ i f, D i f = ∑ a, D i (x a) * d a f

end Shenfun.Spec
