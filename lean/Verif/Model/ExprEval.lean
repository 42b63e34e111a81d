import Verif.Model.Evaluate
import Verif.Model.Forms

/-!
# `Expr.eval` in two dimensions, `/repo/shenfun/forms/arguments.py:721-797`

For one point (the points are independent) on one process. Scales are functions of the point. The one- and
three-dimensional cases differ in the last step only (`np.dot`, `evaluate_3D`, see C82) and are not modelled.
-/

namespace Shenfun.Eval

open Complex

/-- Functions of the true coordinates. -/
abbrev Fn2 := (Fin 2 → ℝ) → ℝ

/-- What `eval` uses of the space: whether it is a `CompositeSpace`; for every component (`V.flatten()`; one for a
`TensorProductSpace`) and axis the domain and reference domain, the row `evaluate_basis_derivative_all(X, k)` at a reference
point, its length, the number of points in physical space, and the number of points if the axis is R2C. -/
structure Space2 where
  composite : Bool
  lower : ℕ → Fin 2 → ℝ
  refLower : ℕ → Fin 2 → ℝ
  df : ℕ → Fin 2 → ℝ
  row : ℕ → Fin 2 → ℕ → ℝ → Row
  cols : ℕ → Fin 2 → ℕ
  phys : ℕ → Fin 2 → ℕ
  r2c : ℕ → Fin 2 → Option ℕ

/-- `P *= domain_factor()**k`. -/
noncomputable def Row.scale (c : ℝ) : Row → Row
  | .r P => .r fun j => P j * c
  | .c P => .c fun j => P j * (c : ℂ)

variable (V : Space2)

/-- `map_reference_domain`, `/repo/shenfun/spectralbase.py:658-673`. -/
noncomputable def Space2.mapRef (q : ℕ) (a : Fin 2) (x : ℝ) : ℝ := V.refLower q a + (x - V.lower q a) * V.df q a

/-- The row for derivative `k`, `/repo/shenfun/forms/arguments.py:759-761`. -/
noncomputable def Space2.P (q : ℕ) (a : Fin 2) (k : ℕ) (x : ℝ) : Row :=
  let P := V.row q a k (V.mapRef q a x)
  if V.df q a = 1 then P else P.scale (V.df q a ^ k)

/-- One term, `/repo/shenfun/forms/arguments.py:749-783`. `V.local_slice()` of a `TensorProductSpace` are the slices of the
coefficients; of a `CompositeSpace` (`/repo/shenfun/tensorproductspace.py:1582-1593`) it has a leading `slice(None)` and the
slices of the physical array of the first component, so that axis 1 gets the slice of axis 0. `none`: the compiled loop reads
behind the end of the row, or `slice(None).start` is passed for an integer. -/
noncomputable def Space2.work (u : ℕ → ℕ → ℕ → ℂ) (t : FTerm Fn2 2) (x : Fin 2 → ℝ) : Option ℂ :=
  let q := if V.composite then t.ind else 0
  let r2c : ℤ := if (V.r2c q 1).isSome then 1 else if (V.r2c q 0).isSome then 0 else -1
  let N := ((V.r2c q 1).or (V.r2c q 0)).getD 0
  if V.composite ∧ (r2c = 0 ∨ V.phys 0 0 < V.cols q 1) then none
  else some (evaluate2D (V.cols q 0) (V.cols q 1) (u q) (V.P q 0 (t.der 0) (x 0)) (V.P q 1 (t.der 1) (x 1)) r2c
    (if r2c < 0 then -1 else lastConj N) 0)

/-- `Expr.eval`, `/repo/shenfun/forms/arguments.py:748-797`. -/
noncomputable def Space2.eval (e : FExpr Fn2 2) (u : ℕ → ℕ → ℕ → ℂ) (x : Fin 2 → ℝ) : Option ℂ :=
  e.foldl (fun out vec => vec.foldl (fun out t => do
    let out ← out
    let work ← V.work u t x
    return out + (t.scale x : ℂ) * work) out) (some 0)

end Shenfun.Eval
