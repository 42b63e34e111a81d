import Verif.Model.Composite

/-!
# Specification: composite spaces
-/

namespace Shenfun.Spec

/-- The spaces that can be constructed: `VectorSpace` holds as many scalar spaces as there are dimensions, `TensorSpace` as many
vector spaces. -/
inductive ValidSpc : Spc → Prop
  | scalar (d a : ℕ) : ValidSpc (.scalar d a)
  | composite (l : List Spc) (h : ∀ s ∈ l, ValidSpc s) : ValidSpc (.comp .composite l)
  | vector (d : ℕ) (as : List ℕ) (h : as.length = d) : ValidSpc (.comp .vector (as.map (Spc.scalar d)))
  | tensor (d : ℕ) (ass : List (List ℕ)) (h : ass.length = d) (h' : ∀ as ∈ ass, as.length = d) :
      ValidSpc (.comp .tensor (ass.map fun as => .comp .vector (as.map (Spc.scalar d))))

/-- The scalar components of a space from left to right. -/
def scalars : Spc → List (ℕ × ℕ)
  | .scalar d a => [(d, a)]
  | .comp _ l => (l.map scalars).flatten

/-- The subspace at the end of a path of (non-negative) indices. -/
def subspace : Spc → List ℕ → Option Spc
  | s, [] => some s
  | .scalar _ _, _ :: _ => none
  | .comp _ l, i :: p => (l[i]?).bind fun s => subspace s p

/-- No composite space on the way has a single component. -/
def NoSingletons : Spc → List ℕ → Prop
  | _, [] => True
  | .scalar _ _, _ :: _ => True
  | .comp _ l, i :: p => ∀ s, l[i]? = some s → (p ≠ [] → (scalars s).length ≠ 1) ∧ NoSingletons s p

/-- The components of the base array that a view shows. -/
def shown {α : Type*} (v : CView) (base : List α) : List α := (base.drop v.start).take (v.len.getD 1)

/-- The multi-indices selected by integers and slices, one for each axis. -/
def Selected (s : List Sel) (mi : List ℕ) : Prop :=
  List.Forall₂ (fun m (x : Sel) => match x with | .fix j => m = j | .sl a b => a ≤ m ∧ m < b) mi s

/-- The degrees of freedom of a component with slices `s` when the wavenumbers along the diagonal axes are `j`: along the other axes
all the indices of the slice. -/
def Dof : List Bool → List (ℕ × ℕ) → List ℕ → List ℕ → Prop
  | true :: ds, _ :: s, j :: js, m :: mi => m = j ∧ Dof ds s js mi
  | false :: ds, (a, b) :: s, js, m :: mi => (a ≤ m ∧ m < b) ∧ Dof ds s js mi
  | [], [], [], [] => True
  | _, _, _, _ => False

/-- The value of a boundary datum at time `t`. -/
def BVal.at {K : Type*} (t : K) : BVal K → K
  | .num a => a
  | .expr _ f => f t

end Shenfun.Spec
