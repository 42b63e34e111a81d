import Verif.Spec.Coordinates
import Verif.Lemmas.Curvilinear
import Mathlib.Analysis.Calculus.ContDiff.Basic
import Mathlib.Analysis.Calculus.ContDiff.Operations
import Mathlib.Analysis.Calculus.FDeriv.Symmetric
import Mathlib.Analysis.Calculus.FDeriv.Mul
import Mathlib.Analysis.Calculus.FDeriv.Add
import Mathlib.Analysis.SpecialFunctions.ExpDeriv
import Mathlib.Analysis.SpecialFunctions.Trigonometric.Deriv
import Mathlib.Analysis.SpecialFunctions.Sqrt

/-!
# The ring of smooth functions on `ℝ^n`

The intended instance of the rings with commuting derivations used in `Verif.Spec.Forms`.
-/

namespace Shenfun

open scoped ContDiff

/-- Smooth functions on `ℝ^n`. -/
def smooth (n : ℕ) : Subring ((Fin n → ℝ) → ℝ) where
  carrier := {f | ContDiff ℝ ∞ f}
  mul_mem' hf hg := by rw [Set.mem_ofPred_eq] at *; exact hf.mul hg
  one_mem' := by rw [Set.mem_ofPred_eq]; exact contDiff_const
  add_mem' hf hg := by rw [Set.mem_ofPred_eq] at *; exact hf.add hg
  zero_mem' := by rw [Set.mem_ofPred_eq]; exact contDiff_const
  neg_mem' hf := by rw [Set.mem_ofPred_eq] at *; exact hf.neg

abbrev Smooth (n : ℕ) : Type := smooth n

namespace Smooth

variable {n : ℕ}

theorem contDiff (f : Smooth n) : ContDiff ℝ ∞ (f : (Fin n → ℝ) → ℝ) := f.2

theorem differentiable (f : Smooth n) : Differentiable ℝ (f : (Fin n → ℝ) → ℝ) := (contDiff f).differentiable (by simp)

/-- The partial derivative as a function. -/
noncomputable def pd (i : Fin n) (f : Smooth n) : Smooth n :=
  ⟨fun x => fderiv ℝ (f : (Fin n → ℝ) → ℝ) x (Pi.single i 1),
    ((contDiff f).fderiv_right (m := ∞) (by simp)).clm_apply contDiff_const⟩

theorem pd_apply (i : Fin n) (f : Smooth n) (x : Fin n → ℝ) : (pd i f).1 x = fderiv ℝ f.1 x (Pi.single i 1) := rfl

/-- The partial derivative `∂/∂x_i` as a derivation. -/
noncomputable def D (i : Fin n) : Derivation ℤ (Smooth n) (Smooth n) :=
  Derivation.mk' (AddMonoidHom.toIntLinearMap
    { toFun := pd i
      map_zero' := by
        apply Subtype.ext; funext x
        simp [pd_apply]
      map_add' := fun f g => by
        apply Subtype.ext; funext x
        have := fderiv_add (differentiable f x) (differentiable g x)
        simp only [pd_apply, Subring.coe_add, Pi.add_apply]
        rw [this]; rfl }) (fun f g => by
        apply Subtype.ext; funext x
        have := fderiv_mul (differentiable f x) (differentiable g x)
        simp only [AddMonoidHom.coe_toIntLinearMap, AddMonoidHom.coe_mk, ZeroHom.coe_mk, pd_apply, Subring.coe_add,
          Pi.add_apply, smul_eq_mul, Subring.coe_mul, Pi.mul_apply]
        rw [this]
        simp)

theorem D_apply (i : Fin n) (f : Smooth n) (x : Fin n → ℝ) : (D i f).1 x = fderiv ℝ f.1 x (Pi.single i 1) := rfl

theorem commuting : Spec.Commuting (D (n := n)) := by
  intro i j f
  apply Subtype.ext; funext x
  have h1 : ∀ k l, (D k (D l f)).1 x = fderiv ℝ (fderiv ℝ f.1) x (Pi.single k 1) (Pi.single l 1) := by
    intro k l
    rw [D_apply]
    have hd : DifferentiableAt ℝ (fderiv ℝ f.1) x :=
      (((contDiff f).fderiv_right (m := ∞) (by simp)).differentiable (by simp)) x
    have : (D l f).1 = fun y => fderiv ℝ f.1 y (Pi.single l 1) := rfl
    rw [this, fderiv_clm_apply hd (differentiableAt_const _)]
    simp
  rw [h1, h1]
  exact (ContDiffAt.isSymmSndFDerivAt ((contDiff f).contDiffAt (x := x))
    (by rw [minSmoothness_of_isRCLikeNormedField]; exact WithTop.coe_le_coe.2 (le_top : (2 : ℕ∞) ≤ ⊤))) _ _

/-- A function of one coordinate composed with a coordinate. -/
def ofCoord (i : Fin n) (φ : ℝ → ℝ) (h : ContDiff ℝ ∞ φ) : Smooth n :=
  ⟨fun x => φ (x i), h.comp (contDiff_apply ℝ ℝ i)⟩

theorem D_ofCoord (i j : Fin n) (φ φ' : ℝ → ℝ) (h : ContDiff ℝ ∞ φ) (h' : ContDiff ℝ ∞ φ') (hd : ∀ t, HasDerivAt φ (φ' t) t) :
    D i (ofCoord j φ h) = if i = j then ofCoord j φ' h' else 0 := by
  apply Subtype.ext; funext x
  rw [D_apply]
  have h1 : HasFDerivAt (fun y : Fin n → ℝ => φ (y j)) ((φ' (x j)) • (ContinuousLinearMap.proj (R := ℝ) (φ := fun _ : Fin n => ℝ) j)) x :=
    (hd (x j)).comp_hasFDerivAt x (hasFDerivAt_apply j x)
  rw [show (ofCoord j φ h).1 = fun y : Fin n → ℝ => φ (y j) from rfl, h1.fderiv]
  split_ifs with hij
  · subst hij; simp [ofCoord]
  · simp [Ne.symm hij]

open Classical in
/-- The square root, where it is smooth. -/
noncomputable def sqrt (f : Smooth n) : Smooth n :=
  if h : ContDiff ℝ ∞ (fun x => Real.sqrt (f.1 x)) then ⟨_, h⟩ else 0

theorem sqrt_sq (f : Smooth n) (hf : ∀ x, 0 ≤ f.1 x) : sqrt (f ^ 2) = f := by
  have h : (fun x => Real.sqrt ((f ^ 2 : Smooth n).1 x)) = f.1 := by
    funext x
    rw [show (f ^ 2 : Smooth n).1 x = (f.1 x) ^ 2 from rfl]
    exact Real.sqrt_sq (hf x)
  unfold sqrt
  rw [dif_pos (by rw [h]; exact f.2)]
  exact Subtype.ext h

noncomputable def exp (i : Fin n) : Smooth n := ofCoord i Real.exp Real.contDiff_exp
noncomputable def expNeg (i : Fin n) : Smooth n := ofCoord i (fun t => Real.exp (-t)) (Real.contDiff_exp.comp contDiff_neg)
noncomputable def cos (i : Fin n) : Smooth n := ofCoord i Real.cos Real.contDiff_cos
noncomputable def sin (i : Fin n) : Smooth n := ofCoord i Real.sin Real.contDiff_sin
def coord (i : Fin n) : Smooth n := ofCoord i (fun t => t) contDiff_id

theorem exp_pos (i : Fin n) (x : Fin n → ℝ) : 0 ≤ (exp i).1 x := (Real.exp_pos _).le

theorem D_exp (i j : Fin n) : D i (exp j) = if i = j then exp j else 0 :=
  D_ofCoord i j _ _ _ _ Real.hasDerivAt_exp

theorem D_cos (i j : Fin n) : D i (cos j) = if i = j then -sin j else 0 := by
  have := D_ofCoord i j Real.cos (fun t => -Real.sin t) Real.contDiff_cos Real.contDiff_sin.neg Real.hasDerivAt_cos
  exact this

theorem D_sin (i j : Fin n) : D i (sin j) = if i = j then cos j else 0 :=
  D_ofCoord i j Real.sin Real.cos Real.contDiff_sin Real.contDiff_cos Real.hasDerivAt_sin

theorem D_coord (i j : Fin n) : D i (coord j) = if i = j then 1 else 0 :=
  D_ofCoord i j (fun t => t) (fun _ => 1) contDiff_id contDiff_const hasDerivAt_id

theorem exp_mul_expNeg (i : Fin n) : exp i * expNeg i = 1 := by
  apply Subtype.ext; funext x
  show Real.exp (x i) * Real.exp (-(x i)) = 1
  rw [← Real.exp_add, add_neg_cancel, Real.exp_zero]

theorem isUnit_exp (i : Fin n) : IsUnit (exp i) := IsUnit.of_mul_eq_one _ (exp_mul_expNeg i)

theorem sin_sq_add_cos_sq (i : Fin n) : sin i ^ 2 + cos i ^ 2 = (1 : Smooth n) := by
  apply Subtype.ext; funext x
  exact Real.sin_sq_add_cos_sq (x i)

theorem isUnit_two : IsUnit (2 : Smooth n) := by
  refine IsUnit.of_mul_eq_one (⟨fun _ => 1/2, contDiff_const (𝕜 := ℝ) (n := ∞)⟩ : Smooth n) ?_
  apply Subtype.ext; funext x
  show (2 : (Fin n → ℝ) → ℝ) x * (1/2) = 1
  norm_num

instance : Nontrivial (Smooth n) := ⟨0, 1, fun h => by
  have := congrFun (congrArg Subtype.val h) 0
  change (0 : ℝ) = 1 at this
  norm_num at this⟩

open Classical in
/-- The zero test that always knows. -/
noncomputable def isZero (f : Smooth n) : Bool := decide (f = 0)

end Smooth

end Shenfun
