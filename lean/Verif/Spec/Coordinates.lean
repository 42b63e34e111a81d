import Verif.Spec.Forms

/-!
# Specification: regular coordinates and Cartesian components
-/

namespace Shenfun.Spec

variable {R : Type*} [CommRing R] {n m : ℕ}

/-- Coordinates that are regular, and sympy answering correctly about them: `sqrt` gives square roots of the numbers it is
applied to, `== 0`, `is_Identity` and `is_diagonal` are not answered positively when they should not. -/
structure Regular (E : FormEnv R n m) : Prop where
  comm : Commuting E.D
  zero : ∀ a, E.isZero a = true → a = 0
  two : IsUnit (2 : R)
  det : IsUnit E.g.det
  sqrt_det : E.sqrt E.g.det ^ 2 = E.g.det
  sqrt_diag : ∀ i, E.sqrt (E.g i i) ^ 2 = E.g i i
  diag : ∀ i, IsUnit (E.g i i)
  cart : E.cart = true → E.g = 1 ∧ E.sqrt 1 = 1
  orth : E.orth = true → ∀ i j, i ≠ j → E.g i j = 0

/-- The basis vectors that components refer to: `b_i`, or `e_i = b_i / h_i` when `config['basisvectors']` is `'normal'`; here
`h_i = sqrt(b_i · b_i)`. -/
noncomputable def basisVector (E : FormEnv R n m) (i : Fin n) (a : Fin m) : R :=
  if E.normal then Ring.inverse (E.sqrt (∑ c, E.D i (E.rv c) ^ 2)) * E.D i (E.rv a) else E.D i (E.rv a)

/-- Cartesian component `a` of the vector with components `w`. -/
noncomputable def cartesian (E : FormEnv R n m) (w : ℕ → R) (a : Fin m) : R := ∑ i : Fin n, w i * basisVector E i a

/-- Cartesian component `a, c` of the tensor with components `w`, stored row by row. -/
noncomputable def cartesian2 (E : FormEnv R n m) (w : ℕ → R) (a c : Fin m) : R :=
  ∑ i : Fin n, ∑ j : Fin n, w (i * n + j) * basisVector E i a * basisVector E j c

end Shenfun.Spec
