import Verif.Model.Generic1ND
import Verif.Props.Axis

/-!
# C41: `SolverGeneric1ND` solves the tensor product system
-/

set_option linter.unusedSimpArgs false
set_option linter.unusedSectionVars false

namespace Shenfun

variable {K : Type*} [NormedField K] {D : ℕ}

namespace SM

theorem mergeAdd_nodup (d : List (ℤ × (ℕ → K))) : ∀ f : List (ℤ × (ℕ → K)), (f.map Prod.fst).Nodup →
    ((mergeAdd f d).map Prod.fst).Nodup := by
  induction d with
  | nil => intro f hf; exact hf
  | cons e d ih =>
    intro f hf
    rw [mergeAdd, List.foldl_cons]
    split_ifs
    · exact ih _ (setItem_nodup hf _ _)
    · exact ih _ (setItem_nodup hf _ _)

theorem tame_one : Tame (1 : K) := by
  refine ⟨Or.inr ?_, Or.inl rfl⟩
  rw [norm_one]; norm_num

theorem iadd_tame {A d : SM K} (hA : Tame A.scale) (hd : Tame d.scale) : Tame (A.iadd d).1.scale := by
  unfold iadd
  split_ifs
  · exact hA
  · exact hd
  · show Tame A.incorporateScale.scale
    rw [incorporateScale_tame A hA]
    exact tame_one

theorem iadd_nodup {A d : SM K} (hA : (A.diags.map Prod.fst).Nodup) (hd : (d.diags.map Prod.fst).Nodup) :
    ((A.iadd d).1.diags.map Prod.fst).Nodup := by
  unfold iadd
  split_ifs
  · exact hA
  · exact hd
  · exact mergeAdd_nodup _ _ (by rw [incorporateScale_keys]; exact hA)

end SM

/-- The conditions on one matrix of the list: the stored diagonals are different, and the scale of this
line is outside the tolerance windows of `SparseMatrix.__iadd__`. -/
structure LineOk (a : Fin D) (I : Fin D → ℕ) (t : TPM D K) : Prop where
  nodup : ((t.mats a).sm.diags.map Prod.fst).Nodup
  tame : SM.Tame ((t.mats a).sm.scale * t.scale I)

theorem smul_nodup {A : SM K} (h : (A.diags.map Prod.fst).Nodup) (y : K) : ((A.smul y).diags.map Prod.fst).Nodup :=
  SM.sortD_nodup h

/-- The assembled one-dimensional matrix is the sum of the scaled matrices. -/
theorem assemble1D_entry (a : Fin D) (mats : List (TPM D K)) (I : Fin D → ℕ) (hm : mats ≠ [])
    (hok : ∀ t ∈ mats, LineOk a I t) :
    ∃ A, assemble1D a mats I = some A ∧
      ∀ i j, A.entry i j = (mats.map fun t => t.scale I * (t.mats a).sm.entry i j).sum := by
  have key : ∀ (l : List (TPM D K)) (s : SM K), (∀ t ∈ l, LineOk a I t) → (s.diags.map Prod.fst).Nodup →
      SM.Tame s.scale → ∃ A, l.foldl (fun sol t =>
        match sol with
        | none => some ((t.mats a).sm.smul (t.scale I))
        | some s => if s.diags = [] then some ((t.mats a).sm.smul (t.scale I))
                    else some (s.iadd ((t.mats a).sm.smul (t.scale I))).1) (some s) = some A ∧
        ∀ i j, A.entry i j = s.entry i j + (l.map fun t => t.scale I * (t.mats a).sm.entry i j).sum := by
    intro l
    induction l with
    | nil => intro s _ _ _; exact ⟨s, rfl, by simp⟩
    | cons t l ih =>
      intro s hl hs ht
      have ht' := hl t (by simp)
      have hsm : ∀ i j, ((t.mats a).sm.smul (t.scale I)).entry i j = t.scale I * (t.mats a).sm.entry i j :=
        fun i j => (SM.C13_scalar _ _ i j).2.1
      rw [List.foldl_cons]
      simp only
      by_cases hd : s.diags = []
      · rw [if_pos hd]
        obtain ⟨A, hA, hA'⟩ := ih ((t.mats a).sm.smul (t.scale I)) (fun u hu => hl u (by simp [hu]))
          (smul_nodup ht'.nodup _) ht'.tame
        refine ⟨A, hA, fun i j => ?_⟩
        rw [hA', hsm]
        have : s.entry i j = 0 := by simp [SM.entry, hd, Spec.diagsEntry]
        rw [this]
        simp
      · rw [if_neg hd]
        obtain ⟨A, hA, hA'⟩ := ih (s.iadd ((t.mats a).sm.smul (t.scale I))).1 (fun u hu => hl u (by simp [hu]))
          (SM.iadd_nodup hs (smul_nodup ht'.nodup _)) (SM.iadd_tame ht ht'.tame)
        refine ⟨A, hA, fun i j => ?_⟩
        rw [hA', (SM.C13_add_sub s _ hs ht ht'.tame i j).2.2.1, hsm]
        simp only [List.map_cons, List.sum_cons]
        ring
  cases mats with
  | nil => exact absurd rfl hm
  | cons t l =>
    have ht' := hok t (by simp)
    obtain ⟨A, hA, hA'⟩ := key l ((t.mats a).sm.smul (t.scale I)) (fun u hu => hok u (by simp [hu]))
      (smul_nodup ht'.nodup _) ht'.tame
    refine ⟨A, ?_, ?_⟩
    · rw [assemble1D, List.foldl_cons]
      exact hA
    · intro i j
      rw [hA', (SM.C13_scalar _ _ i j).2.1]
      simp

/-- **C41.**  `SolverGeneric1ND`: let `mats` be simplified tensor product matrices (identity along every axis
but `a`, scale constant along `a`), all of shape `n`.  If every line of `u` along `a` solves the
one-dimensional system assembled for that line, then `u` solves the whole tensor product system
`∑ mats · u = b`. -/
theorem C41_solver_generic_1nd (a : Fin D) (n : Fin D → ℕ) (mats : List (TPM D K)) (hm : mats ≠ [])
    (hid : ∀ t ∈ mats, ∀ c, c ≠ a → (t.mats c).sm.entry = fun i j => if i = j then 1 else 0)
    (hsc : ∀ t ∈ mats, ∀ I j, t.scale (Function.update I a j) = t.scale I)
    (hok : ∀ t ∈ mats, ∀ I, (∀ c, I c < n c) → LineOk a I t)
    (u b : (Fin D → ℕ) → K)
    (hsol : ∀ I, (∀ c, I c < n c) → ∀ A, assemble1D a mats I = some A →
      Spec.Solves (n a) A.entry (fun j => u (Function.update I a j)) (fun j => b (Function.update I a j))) :
    ∀ I, (∀ c, I c < n c) → (mats.map fun t => Spec.tensorApply n t.op u I).sum = b I := by
  intro I hI
  obtain ⟨A, hA, hA'⟩ := assemble1D_entry a mats I hm fun t ht => hok t ht I hI
  have h := hsol I hI A hA (I a) (hI a)
  simp only [Function.update_eq_self] at h
  rw [← h, Spec.mulVec]
  have each : ∀ t ∈ mats, Spec.tensorApply n t.op u I
      = ∑ j ∈ Finset.range (n a), t.scale I * (t.mats a).sm.entry (I a) j * u (Function.update I a j) := by
    intro t ht
    have := tensor_of_axes n (fun c => (t.mats c).sm.entry) [a] (by simp)
      (fun c hc => hid t ht c (by simpa using hc)) u I (fun c _ => hI c)
    simp only [List.foldr_cons, List.foldr_nil, Spec.applyAxis] at this
    rw [Spec.tensorApply]
    simp only [TPM.op, Spec.tensorEntry, mul_assoc]
    rw [← Finset.mul_sum, ← Finset.mul_sum, this]
  rw [List.map_congr_left each]
  simp only [hA']
  clear each hA' hA h hsol hok hsc hid hm
  induction mats with
  | nil => simp
  | cons t l ih =>
    simp only [List.map_cons, List.sum_cons]
    rw [ih, ← Finset.sum_add_distrib]
    apply Finset.sum_congr rfl
    intro j _
    ring

/-- A list of two simplified matrices (a Helmholtz problem: stiffness plus a wavenumber dependent mass
matrix) that meets the hypotheses on the matrices. -/
noncomputable def exLine (m : Bool) : TPM 2 ℝ :=
  { gidx := none,
    mats := ![TPM.ident 4 4,
      { sm := { rows := 4, cols := 4, scale := 1, diags := [(0, fun i => i + 1), (2, fun _ => 1)] },
        key := 5, scalar := false, bc := false }],
    scale := fun I => if m then 2 + I 0 else 3, diag := ![true, false], simplified := true }

example : ∀ t ∈ [exLine true, exLine false],
    (∀ c, c ≠ (1 : Fin 2) → (t.mats c).sm.entry = fun i j => if i = j then 1 else 0) ∧
    (∀ I j, t.scale (Function.update I 1 j) = t.scale I) ∧
    (∀ I, LineOk 1 I t) := by
  have key : ∀ m, (∀ c, c ≠ (1 : Fin 2) → ((exLine m).mats c).sm.entry = fun i j => if i = j then 1 else 0) ∧
    (∀ I j, (exLine m).scale (Function.update I 1 j) = (exLine m).scale I) ∧
    (∀ I, LineOk 1 I (exLine m)) := by
    intro m
    refine ⟨?_, ?_, ?_⟩
    · intro c hc
      fin_cases c
      · funext i j
        exact ident_entry (K := ℝ) 4 4 i j
      · exact absurd rfl hc
    · intro I j
      simp [exLine, Function.update_of_ne]
    · intro I
      refine ⟨by simp [exLine], ?_, ?_⟩
      · right
        cases m
        · simp only [exLine]; simp; norm_num
        · simp only [exLine]; simp
          rw [abs_of_pos (by positivity)]
          have : (0 : ℝ) ≤ I 0 := by positivity
          norm_num
          linarith
      · right
        cases m
        · simp only [exLine]; simp; norm_num
        · simp only [exLine]; simp
          have : (0 : ℝ) ≤ I 0 := by positivity
          rw [abs_of_pos (by linarith)]
          norm_num
          linarith
  intro t ht
  simp at ht
  rcases ht with rfl | rfl
  · exact key true
  · exact key false

end Shenfun
