import Mathlib.RingTheory.Derivation.Basic
import Mathlib.LinearAlgebra.Matrix.NonsingularInverse
import Mathlib.Data.List.FinRange

/-!
# Forms: `Expr`, `Dx`, `grad`, `div`, `curl` and `Coordinates`

Models `/repo/shenfun/forms/arguments.py` (class `Expr`), `/repo/shenfun/forms/operators.py` and
`/repo/shenfun/coordinates.py`.

* Sympy expressions in the coordinates `psi` are elements of a commutative ring `R`; `sp.diff(., psi[i])` is the
  derivation `D i`.  `sp.simplify` and `Coordinates.refine` are the identity (they are assumed to preserve values).
* Sympy's tests `e == 0` are a function `isZero : R → Bool`; theorems assume only that `true` is a correct answer.
* `sp.sqrt` is a function `sqrt : R → R`; theorems assume that its square is its argument.
* The three parallel nested lists `terms`, `scales`, `indices` of an `Expr` are one list of lists of triples (every
  method appends to, pops from and replaces the three in lockstep).
* Assertions on arguments are hypotheses of the theorems.  Which `BasisFunction` object the result refers to is not
  modelled.
-/

namespace Shenfun

/-- One term of an `Expr`: `scale * D^der (component ind)`; `/repo/shenfun/forms/arguments.py:431-480`. -/
structure FTerm (R : Type*) (n : ℕ) where
  der : Fin n → ℕ
  scale : R
  ind : ℕ

/-- The lists of an `Expr`, outer list over tensor components, `/repo/shenfun/forms/arguments.py:500-514`. -/
abbrev FExpr (R : Type*) (n : ℕ) := List (List (FTerm R n))

namespace FExpr

variable {R : Type*} [CommRing R] {n m : ℕ}

/-- `Expr(basis)` for a basis function with `nc` components and given offset, `/repo/shenfun/forms/arguments.py:505-514`. -/
def ofBasis (nc offset : ℕ) : FExpr R n := (List.range nc).map fun i => [⟨0, 1, offset + i⟩]

/-- `Expr.__mul__`, `Expr.__rmul__`, `Expr.__imul__` with a scalar, `/repo/shenfun/forms/arguments.py:875-898`. -/
def mul (e : FExpr R n) (a : R) : FExpr R n := e.map fun c => c.map fun t => { t with scale := t.scale * a }

/-- `Expr.__mul__` with a tuple: component `i` is multiplied with `a[i]`, `/repo/shenfun/forms/arguments.py:875-884`. -/
def mulTuple (e : FExpr R n) (a : List R) : FExpr R n :=
  List.zipWith (fun c ai => c.map fun t => { t with scale := t.scale * ai }) e a

/-- `Expr.__add__`, `Expr.__iadd__`, `/repo/shenfun/forms/arguments.py:900-933` (equal numbers of components are
asserted there). -/
def add (e f : FExpr R n) : FExpr R n := List.zipWith (· ++ ·) e f

/-- `Expr.__neg__`, `/repo/shenfun/forms/arguments.py:977-983`. -/
def neg (e : FExpr R n) : FExpr R n := e.map fun c => c.map fun t => { t with scale := t.scale * (-1) }

/-- `Expr.__sub__`, `Expr.__isub__`, `/repo/shenfun/forms/arguments.py:935-975`. -/
def sub (e f : FExpr R n) : FExpr R n :=
  List.zipWith (fun c d => c ++ d.map fun t => { t with scale := -t.scale }) e f

/-- One pass of the inner loop of `simplify`, `/repo/shenfun/forms/arguments.py:997-1019`. -/
def simplifyStep (isZero : R → Bool) (acc : List (FTerm R n)) (t : FTerm R n) : List (FTerm R n) :=
  match acc.findIdx? (fun s => decide (s.der = t.der) && decide (s.ind = t.ind)) with
  | some k =>
    match acc[k]? with
    | some s =>
      if isZero (s.scale + t.scale) then acc.eraseIdx k else acc.set k { s with scale := s.scale + t.scale }
    | none => acc
  | none => if isZero t.scale then acc else acc ++ [t]

/-- `Expr.simplify`, `/repo/shenfun/forms/arguments.py:985-1023`. -/
def simplify (isZero : R → Bool) (e : FExpr R n) : FExpr R n :=
  if e.all (fun c => c.length == 1) then e else e.map fun c => c.foldl (simplifyStep isZero) []

/-- `Expr.expr_rank`, `/repo/shenfun/forms/arguments.py:545-558`; `none` stands for an exception (`IndexError` of
`self._terms[0][0]`, the assertion, or `RuntimeError`). -/
def exprRank (e : FExpr R n) : Option ℕ :=
  if n = 1 then (if e.length < 3 then some (e.length - 1) else none)
  else if e.length = 1 then some 0
  else if (e.getD 0 []).length = 0 then none
  else if e.length = n then some 1
  else if e.length = n ^ 2 then some 2
  else none

/-- `Expr.__getitem__` of a vector, `/repo/shenfun/forms/arguments.py:803-818`. -/
def item (e : FExpr R n) (i : ℕ) : FExpr R n := [e.getD i []]

/-- `Expr.__getitem__` of a tensor, `/repo/shenfun/forms/arguments.py:820-826`. -/
def row (e : FExpr R n) (i : ℕ) : FExpr R n := (e.drop (i * n)).take n

/-- A sum accumulated with `+=` from the first element of a list, as in `/repo/shenfun/forms/operators.py:97-99`.  (The code
raises `IndexError` for an empty list.) -/
def sumE : List (FExpr R n) → FExpr R n
  | [] => []
  | e :: L => L.foldl add e

end FExpr

/-- What the operators use: coordinates, `config['basisvectors']` and the sympy oracles. `cart` and `orth` are the values of
`Coordinates.is_cartesian` and `is_orthogonal`, `/repo/shenfun/coordinates.py:77-85`. -/
structure FormEnv (R : Type*) [CommRing R] (n m : ℕ) where
  D : Fin n → Derivation ℤ R R
  rv : Fin m → R
  isZero : R → Bool
  sqrt : R → R
  cart : Bool
  orth : Bool
  normal : Bool

namespace FormEnv

variable {R : Type*} [CommRing R] {n m : ℕ} (E : FormEnv R n m)

/-- `Coordinates.get_covariant_basis`, `/repo/shenfun/coordinates.py:147-166`. -/
def b : Matrix (Fin n) (Fin m) R := Matrix.of fun i a => E.D i (E.rv a)

/-- `Coordinates.get_covariant_metric_tensor`, `/repo/shenfun/coordinates.py:199-211`. -/
def g : Matrix (Fin n) (Fin n) R := Matrix.of fun i j => ∑ a, E.b i a * E.b j a

/-- `Coordinates.get_contravariant_metric_tensor`, `/repo/shenfun/coordinates.py:213-224`. -/
noncomputable def gt : Matrix (Fin n) (Fin n) R := (E.g)⁻¹

/-- `Coordinates.get_contravariant_basis`, `/repo/shenfun/coordinates.py:168-183`. -/
noncomputable def bt : Matrix (Fin n) (Fin m) R := Matrix.of fun i a => ∑ j, E.gt i j * E.b j a

/-- `Coordinates.get_christoffel_second`, `ct[k, i, j]`, `/repo/shenfun/coordinates.py:226-238`. -/
noncomputable def ct (k i j : Fin n) : R := ∑ a, E.D j (E.b i a) * E.bt k a

/-- `Coordinates.get_scaling_factors`, `/repo/shenfun/coordinates.py:122-133`. -/
def hi (i : Fin n) : R := E.sqrt (∑ a, E.b i a ^ 2)

/-- `Coordinates.get_sqrt_det_g`, `/repo/shenfun/coordinates.py:100-116`. -/
def sg : R := E.sqrt E.g.det

open FExpr

/-- `Dx(test, x, 1)`, `/repo/shenfun/forms/operators.py:208-236`: all terms get one more derivative, and where the
derivative of the scale is not found to be zero a term with it is appended. -/
def dx1 (x : Fin n) (e : FExpr R n) : FExpr R n :=
  e.map fun c => (c.map fun t => { t with der := Function.update t.der x (t.der x + 1) }) ++
    (c.filter fun t => !E.isZero (E.D x t.scale)).map fun t => { t with scale := E.D x t.scale }

/-- `Dx(test, x, k)`, `/repo/shenfun/forms/operators.py:199-206`. -/
def dx (x : Fin n) (k : ℕ) (e : FExpr R n) : FExpr R n := (E.dx1 x)^[k] e

/-- The factors `his` of `_expr_from_vector_components`, `/repo/shenfun/forms/operators.py:14-22`. -/
def his (len i : ℕ) : R :=
  if E.normal then
    if len = n then (if h : i < n then E.hi ⟨i, h⟩ else 1)
    else if len = n ^ 2 then
      (if h : i / n < n ∧ i % n < n then E.hi ⟨i / n, h.1⟩ * E.hi ⟨i % n, h.2⟩ else 1)
    else 1
  else 1

/-- `_expr_from_vector_components`, `/repo/shenfun/forms/operators.py:11-29`. -/
def fromComponents (d : List (FExpr R n)) : FExpr R n :=
  (d.mapIdx fun i c => mul c (E.his d.length i)).flatten

/-- `Expr.get_contravariant_component(i)`, also with `i=None` in one dimension, `/repo/shenfun/forms/arguments.py:846-863`. -/
noncomputable def comp (e : FExpr R n) (i : Fin n) : FExpr R n :=
  if E.normal then mul (item e i) (Ring.inverse (E.hi i)) else item e i

/-- `Expr.get_contravariant_component(i, j)`, `/repo/shenfun/forms/arguments.py:864-873`. -/
noncomputable def comp2 (e : FExpr R n) (i j : Fin n) : FExpr R n :=
  if E.normal then mul (item (row e i) j) (Ring.inverse (E.hi i * E.hi j)) else item (row e i) j

/-- `x*sc` unless `sc == 0`. -/
def unlessZero (sc : R) (e : FExpr R n) : List (FExpr R n) := if E.isZero sc then [] else [mul e sc]

/-- `grad`, `/repo/shenfun/forms/operators.py:113-184`. -/
noncomputable def grad (e : FExpr R n) : FExpr R n :=
  simplify E.isZero (E.fromComponents (
    if E.cart then
      if e.length > 1 then (List.range e.length).flatMap fun i => (List.finRange n).map fun j => E.dx1 j (item e i)
      else (List.finRange n).map fun i => E.dx1 i e
    else
      if e.length > 1 then
        (List.finRange n).flatMap fun i => (List.finRange n).map fun j =>
          sumE ((List.finRange n).flatMap fun l =>
            E.unlessZero (E.gt l j) (E.dx1 l (E.comp e i)) ++
            (List.finRange n).flatMap fun k => E.unlessZero (E.gt l j * E.ct i k l) (E.comp e k))
      else
        (List.finRange n).map fun i => sumE ((List.finRange n).flatMap fun j => E.unlessZero (E.gt j i) (E.dx1 j e))))

/-- `div` of a vector in Cartesian coordinates, `/repo/shenfun/forms/operators.py:59-65`. -/
def divVecCart (e : FExpr R n) : FExpr R n :=
  simplify E.isZero (sumE ((List.finRange n).map fun i => E.dx1 i (item e i)))

/-- `div`, `/repo/shenfun/forms/operators.py:30-111`. -/
noncomputable def div (e : FExpr R n) : FExpr R n :=
  if E.cart then
    if n = 1 then sumE ((List.finRange n).map fun i => E.dx1 i e)
    else if e.length = n ^ 2 then E.fromComponents ((List.finRange n).map fun i : Fin n => E.divVecCart (row e i))
    else E.divVecCart e
  else
    if n = 1 then
      sumE ((List.finRange n).map fun i => mul (E.dx1 i (mul (E.comp e i) E.sg)) (Ring.inverse E.sg))
    else if e.length = n ^ 2 then
      E.fromComponents ((List.finRange n).map fun i =>
        simplify E.isZero (sumE ((List.finRange n).flatMap fun j =>
          E.dx1 j (E.comp2 e i j) ::
          (List.finRange n).flatMap fun k =>
            E.unlessZero (E.ct i k j) (E.comp2 e k j) ++ E.unlessZero (E.ct j k j) (E.comp2 e i k))))
    else
      simplify E.isZero (sumE ((List.finRange n).map fun i =>
        mul (E.dx1 i (mul (E.comp e i) E.sg)) (Ring.inverse E.sg)))

/-- `curl` in three dimensions, `/repo/shenfun/forms/operators.py:239-309`. -/
noncomputable def curl3 (E : FormEnv R 3 m) (e : FExpr R 3) : FExpr R 3 :=
  simplify E.isZero (
    if E.cart then
      sub (E.dx1 1 (item e 2)) (E.dx1 2 (item e 1)) ++
      sub (E.dx1 2 (item e 0)) (E.dx1 0 (item e 2)) ++
      sub (E.dx1 0 (item e 1)) (E.dx1 1 (item e 0))
    else if E.orth then
      E.fromComponents [
        mul (sub (E.dx1 1 (mul (E.comp e 2) (E.hi 2 ^ 2))) (E.dx1 2 (mul (E.comp e 1) (E.hi 1 ^ 2)))) (Ring.inverse E.sg),
        mul (sub (E.dx1 2 (mul (E.comp e 0) (E.hi 0 ^ 2))) (E.dx1 0 (mul (E.comp e 2) (E.hi 2 ^ 2)))) (Ring.inverse E.sg),
        mul (sub (E.dx1 0 (mul (E.comp e 1) (E.hi 1 ^ 2))) (E.dx1 1 (mul (E.comp e 0) (E.hi 0 ^ 2)))) (Ring.inverse E.sg)]
    else
      E.fromComponents [
        sumE ((List.finRange 3).map fun i => mul (sub (E.dx1 1 (mul (E.comp e i) (E.g 2 i)))
          (E.dx1 2 (mul (E.comp e i) (E.g 1 i)))) (Ring.inverse E.sg)),
        sumE ((List.finRange 3).map fun i => mul (sub (E.dx1 2 (mul (E.comp e i) (E.g 0 i)))
          (E.dx1 0 (mul (E.comp e i) (E.g 2 i)))) (Ring.inverse E.sg)),
        sumE ((List.finRange 3).map fun i => mul (sub (E.dx1 0 (mul (E.comp e i) (E.g 1 i)))
          (E.dx1 1 (mul (E.comp e i) (E.g 0 i)))) (Ring.inverse E.sg))])

/-- `curl` of a vector in two dimensions, `/repo/shenfun/forms/operators.py:266-309`. -/
noncomputable def curl2 (E : FormEnv R 2 m) (e : FExpr R 2) : FExpr R 2 :=
  simplify E.isZero (
    if E.cart then sub (E.dx1 0 (item e 1)) (E.dx1 1 (item e 0))
    else if E.orth then
      mul (sub (E.dx1 0 (mul (E.comp e 1) (E.hi 1 ^ 2))) (E.dx1 1 (mul (E.comp e 0) (E.hi 0 ^ 2)))) (Ring.inverse E.sg)
    else sumE ((List.finRange 2).map fun i => mul (sub (E.dx1 0 (mul (E.comp e i) (E.g 1 i)))
        (E.dx1 1 (mul (E.comp e i) (E.g 0 i)))) (Ring.inverse E.sg)))

/-- `curl` of a scalar in two Cartesian dimensions, `/repo/shenfun/forms/operators.py:271-273`. -/
def curl2Scalar (E : FormEnv R 2 m) (e : FExpr R 2) : FExpr R 2 :=
  simplify E.isZero (E.fromComponents [E.dx1 1 e, neg (E.dx1 0 e)])

end FormEnv

end Shenfun
