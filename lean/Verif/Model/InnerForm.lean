import Verif.Model.TensorTransform
import Verif.Model.Forms

/-!
# Assembly of bilinear and linear forms: `inner`, `/repo/shenfun/forms/inner.py:356-511` and `Inner`, lines 515-573

Sympy expressions in the coordinates are functions of a point; the scales of an `Expr` (`Verif.Model.Forms`) and the
metric are such functions. `split` (`/repo/shenfun/utilities/__init__.py:494-534`) and one-dimensional `inner_product`s
are parameters of the model, about which the theorems assume what C54 proves (and refutes) for them. `sp.simplify` and
`refine` keep values. The recursion over the components of vector and tensor test functions (lines 288-351) is
`recursive`. Which communicator and storage the matrices use is not modelled.
-/

namespace Shenfun.InnerForm

open TPT

variable {K : Type*} [Field K] [DecidableEq K] {D : ℕ}

/-- Functions of a point. -/
abbrev Fn (D : ℕ) (K : Type*) := (Fin D → K) → K

/-- A one-dimensional matrix: the number of its stored diagonals (`len(AA)`) and its entries. -/
structure Mat (K : Type*) where
  len : ℕ
  entry : ℕ → ℕ → K

/-- What `inner` knows about the two spaces and the coordinates: `sg`, the metric tensor for the configured basis vectors,
sympy's test for zero, `split`, the one-dimensional `inner_product((tt, a), (ts, b), msi)` of test component `p` and trial
component `q` along an axis, the same with `ts.get_bc_space()`, and `ts.has_nonhomogeneous_bcs`. -/
structure Setting (D : ℕ) (K : Type*) where
  sg : Fn D K
  gij : ℕ → ℕ → Fn D K
  isZero : Fn D K → Bool
  split : Fn D K → List (Term D K)
  ip : ℕ → ℕ → Fin D → ℕ → ℕ → (K → K) → Mat K
  ipb : ℕ → ℕ → Fin D → ℕ → ℕ → (K → K) → Mat K
  bc : ℕ → Fin D → Bool

/-- One matrix of the result: a `TPMatrix` (or, in one dimension, a `SpectralMatrix`); `bnd a` says whether the factor along
axis `a` is a boundary matrix; `p`, `q` are its `global_index`. -/
structure Item (D : ℕ) (K : Type*) where
  bnd : Fin D → Bool
  mats : Fin D → ℕ → ℕ → K
  scale : K
  p : ℕ
  q : ℕ

variable (s : Setting D K)

/-- `len(trial_sp.get_nonhomogeneous_axes())`. -/
def Setting.count (q : ℕ) : ℕ := ((List.finRange D).filter fun a => s.bc q a).length

/-- The matrices with boundary factors that are appended, `/repo/shenfun/forms/inner.py:460-476`: which factors are
boundary matrices. `DM[i]` is zero when the boundary matrix has no diagonals (lines 431-445). The case of two
inhomogeneous axes is written for two dimensions. -/
def Setting.patterns (q : ℕ) (len : Fin D → ℕ) : List (Fin D → Bool) :=
  let hasBcs := (List.finRange D).any fun a => s.bc q a && decide (0 < len a)
  if hasBcs then
    if s.count q = 1 then [s.bc q]
    else if s.count q = 2 then
      let dm0 := (List.finRange D).any fun a => decide (a.val = 0) && decide (0 < len a)
      let dm1 := (List.finRange D).any fun a => decide (a.val = 1) && decide (0 < len a)
      (if dm1 then [fun a => decide (a.val = 1)] else []) ++ (if dm0 then [fun a => decide (a.val = 0)] else [])
        ++ (if dm0 && dm1 then [fun _ => true] else [])
    else []
  else []

/-- The matrices for one pair of terms and one term `dv` of the split measure, `/repo/shenfun/forms/inner.py:413-476`: if
one of the one-dimensional matrices is empty, or the constant is zero, nothing is appended. -/
def Setting.pieces (t0 t1 : FTerm (Fn D K) D) (dv : Term D K) : List (Item D K) :=
  let A := fun a => s.ip t0.ind t1.ind a (t0.der a) (t1.der a) (dv.fac a)
  let B := fun a => s.ipb t0.ind t1.ind a (t0.der a) (t1.der a) (dv.fac a)
  let sc := if (List.finRange D).any fun a => decide ((A a).len = 0) then 0 else dv.coeff
  if sc = 0 then []
  else ((fun _ => false) :: s.patterns t1.ind fun a => (B a).len).map fun bnd =>
    { bnd := bnd
      mats := fun a => if bnd a then (B a).entry else (A a).entry
      scale := sc
      p := t0.ind
      q := t1.ind }

/-- All matrices of a form, `/repo/shenfun/forms/inner.py:391-476`. The metric is not used when the expression has a single
component; otherwise `gij[vec_i, vec_j]` raises an `IndexError` (`none`) outside its shape. -/
def Setting.assemble (test trial : FExpr (Fn D K) D) : Option (List (Item D K)) :=
  if test.length ≠ 1 ∧ (D < test.length ∨ D < trial.length) then none
  else some <| (List.range test.length).flatMap fun i => (List.range trial.length).flatMap fun j =>
    let g : Fn D K := if test.length = 1 then fun _ => 1 else s.gij i j
    if s.isZero g then []
    else (test.getD i []).flatMap fun t0 => (trial.getD j []).flatMap fun t1 =>
      let dV : Fn D K := fun x => t0.scale x * t1.scale x * s.sg x * g x
      if s.isZero dV then [] else (s.split dV).flatMap (s.pieces t0 t1)

/-- The entry of a matrix between test function `I` and trial function `J`; trial functions with an index of at least `n`
along an axis are the boundary functions of that axis (`SpectralMatrix.matvec` multiplies with the slice of its trial
space, `/repo/shenfun/matrixbase.py:755-760`). -/
def Item.entry (n : ℕ → Fin D → ℕ) (b : Item D K) (I J : Fin D → ℕ) : K :=
  if ∀ a, b.bnd a = true ↔ n b.q a ≤ J a then
    b.scale * ∏ a, b.mats a (I a) (if b.bnd a then J a - n b.q a else J a)
  else 0

/-- `b.matvec(uh[b.global_index[1]])`; `size` are the lengths of the coefficient arrays, boundary dofs included. -/
def Item.matvec (n size : ℕ → Fin D → ℕ) (b : Item D K) (u : Arr D K) : Arr D K := fun I =>
  ∑ J ∈ Fintype.piFinset fun a => Finset.range (size b.q a), b.entry n I J * u J

/-- The loop of a linear form, `/repo/shenfun/forms/inner.py:498-508`: the products are added to `output_array`. -/
def linear (n size : ℕ → Fin D → ℕ) (A : List (Item D K)) (uh out : ℕ → Arr D K) : ℕ → Arr D K :=
  A.foldl (fun out b => Function.update out b.p fun I => out b.p I + b.matvec n size (uh b.q) I) out

/-- The recursion for a vector test function (rank one, bilinear form), `/repo/shenfun/forms/inner.py:342-351`:
`inner(te, tr*gij[i, j])` for the components `te` of the test function and `tr` of the trial expression, as one-component
expressions. -/
def Setting.recursive (test trial : FExpr (Fn D K) D) : Option (List (Item D K)) :=
  ((List.range test.length).flatMap fun i => (List.range trial.length).map fun j => (i, j)).foldl
    (fun acc ij => do
      let r ← acc
      if s.isZero (s.gij ij.1 ij.2) then return r
      let p ← s.assemble [test.getD ij.1 []]
        [(trial.getD ij.2 []).map fun t => { t with scale := fun x => t.scale x * s.gij ij.1 ij.2 x }]
      return r ++ p) (some [])

/-- An `Inner` object: its matrices and functions, `/repo/shenfun/forms/inner.py:532-544`. -/
abbrev InnerObj (D : ℕ) (K : Type*) := List (List (Item D K) × (ℕ → Arr D K))

/-- `Inner.__call__`, `/repo/shenfun/forms/inner.py:546-566`. -/
def InnerObj.call (n size : ℕ → Fin D → ℕ) (o : InnerObj D K) : ℕ → Arr D K :=
  o.foldl (fun out Au => linear n size Au.1 Au.2 out) fun _ _ => 0

/-- `Inner.__add__`, `/repo/shenfun/forms/inner.py:568-573`: `c` is appended to `self`, and `self` is returned; the first
component is the new state of `self`. -/
def InnerObj.add (self c : InnerObj D K) : InnerObj D K × InnerObj D K := (self ++ c, self ++ c)

end Shenfun.InnerForm
