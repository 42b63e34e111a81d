import Verif.Model.Axis

/-!
# `SolverGeneric1ND`: one non-diagonal axis, `/repo/shenfun/la.py:1183-1420`
-/

namespace Shenfun

variable {K : Type*} [NormedField K] {D : ℕ}

/-- Assembly of the one-dimensional matrix of one line, `/repo/shenfun/la.py:1239-1246, 1255-1263`:
`sol += mat.mats[naxes]*sc`.  `a` is the non-diagonal axis and the line is the one through `I`.
(`if sol:` is the truth value of the dictionary.) -/
noncomputable def assemble1D (a : Fin D) (mats : List (TPM D K)) (I : Fin D → ℕ) : Option (SM K) :=
  mats.foldl (fun sol t =>
    match sol with
    | none => some ((t.mats a).sm.smul (t.scale I))
    | some s => if s.diags = [] then some ((t.mats a).sm.smul (t.scale I))
                else some (s.iadd ((t.mats a).sm.smul (t.scale I))).1) none

end Shenfun
