import Verif.Model.Project
import Verif.Props.Axis

/-!
# C76: projection
-/

namespace Shenfun

set_option linter.unusedSectionVars false

open TPM

variable {K : Type*} [Field K] {D : ℕ}

/-- `S` solves along axis `a` for every line inside the shape `n`. -/
def SolvesAlong (n : Fin D → ℕ) (M : ℕ → ℕ → K) (a : Fin D) (S : Arr D K → Arr D K) : Prop :=
  ∀ w I, (∀ c, I c < n c) → Spec.applyAxis (n a) M a (S w) I = w I

/-- The operator of an assembled matrix is the one-dimensional matrices of the axes in `L` applied one after the
other, times the scale and the diagonals of the other axes. -/
theorem tensorApply_axes (t : TPM D K) (ht : t.Assembled) (n : Fin D → ℕ) (L : List (Fin D)) (hL : L.Nodup)
    (hd : ∀ a, a ∈ L ↔ t.diag a = false) (v : Arr D K) (I : Fin D → ℕ) (hI : ∀ a, I a < n a) :
    Spec.tensorApply n t.op v I
      = L.foldr (fun a w => Spec.applyAxis (n a) (t.mats a).sm.entry a w) v I * t.simpScale I := by
  have hM : ∀ a ∈ L, (t.simplify.mats a).sm.entry = (t.mats a).sm.entry := by
    intro a ha
    have := (hd a).1 ha
    simp [TPM.simplify, TPM.simpMats, this]
  have hfold : ∀ L' : List (Fin D), (∀ a ∈ L', a ∈ L) →
      L'.foldr (fun a w => Spec.applyAxis (n a) (t.mats a).sm.entry a w) v
        = L'.foldr (fun a w => Spec.applyAxis (n a) (t.simplify.mats a).sm.entry a w) v := by
    intro L' hsub
    induction L' with
    | nil => rfl
    | cons a L' ih =>
      rw [List.foldr_cons, List.foldr_cons, ih fun b hb => hsub b (by simp [hb]), hM a (hsub a (by simp))]
  rw [hfold L fun _ h => h,
    tensor_of_axes n (fun a => (t.simplify.mats a).sm.entry) L hL ?_ v I fun a _ => hI a]
  · rw [Spec.tensorApply, Finset.sum_mul]
    refine Finset.sum_congr rfl fun J _ => ?_
    rw [← C16_simplify_op t ht]
    simp only [TPM.op, Spec.tensorEntry, TPM.simplify]
    ring
  · intro a ha
    have hda : t.diag a = true := by
      have := fun h => ha ((hd a).2 h)
      simpa using this
    simp only [TPM.simplify, TPM.simpMats, hda, if_true]
    funext i j
    exact ident_entry _ _ i j

/-- **C76 (two non-periodic directions: what is computed).** The function returned by `project` satisfies
`(B[0] u)(I) = scale(I) * (diagonals of the Fourier axes)(I) * rhs(I)`. -/
theorem C76_two_factor (t : TPM D K) (ht : t.Assembled) (rest : List (TPM D K)) (n : Fin D → ℕ) (a b : Fin D) (hab : a ≠ b)
    (hd : ∀ c, t.diag c = false ↔ c = a ∨ c = b) (solve : Mat1 K → Fin D → Arr D K → Arr D K)
    (ha : SolvesAlong n (t.mats a).sm.entry a (solve (t.mats a) a))
    (hb : SolvesAlong n (t.mats b).sm.entry b (solve (t.mats b) b)) (rhs : Arr D K) (I : Fin D → ℕ)
    (hI : ∀ c, I c < n c) :
    Spec.tensorApply n t.op (projectTwo solve (t :: rest) a b rhs) I = t.simpScale I * rhs I := by
  rw [tensorApply_axes t ht n [a, b] (by simp [hab]) (by intro c; rw [hd]; simp) _ I hI]
  simp only [List.foldr_cons, List.foldr_nil, projectTwo]
  have h1 : Spec.applyAxis (n a) (t.mats a).sm.entry a
      (Spec.applyAxis (n b) (t.mats b).sm.entry b (solve (t.mats b) b (solve (t.mats a) a rhs))) I
      = Spec.applyAxis (n a) (t.mats a).sm.entry a (solve (t.mats a) a rhs) I := by
    unfold Spec.applyAxis
    refine Finset.sum_congr rfl fun j hj => ?_
    congr 1
    have hI' : ∀ c, Function.update I a j c < n c := by
      intro c
      by_cases hc : c = a
      · subst hc; simpa using hj
      · rw [Function.update_of_ne hc]; exact hI c
    exact hb _ (Function.update I a j) hI'
  rw [h1, ha rhs I hI, mul_comm]

/-- **C76 (two non-periodic directions).** `project` returns the Galerkin projection - `B u = rhs` - when there is one
mass matrix, its scale is one and there are no other axes (or the Fourier mass matrices are identities). -/
theorem C76_two (t : TPM D K) (ht : t.Assembled) (n : Fin D → ℕ) (a b : Fin D) (hab : a ≠ b)
    (hd : ∀ c, t.diag c = false ↔ c = a ∨ c = b) (solve : Mat1 K → Fin D → Arr D K → Arr D K)
    (ha : SolvesAlong n (t.mats a).sm.entry a (solve (t.mats a) a))
    (hb : SolvesAlong n (t.mats b).sm.entry b (solve (t.mats b) b)) (hs : ∀ I, t.scale I = 1)
    (hf : ∀ c, t.diag c = true → ∀ i, diagFactor (t.mats c) i = 1) (rhs : Arr D K) (I : Fin D → ℕ)
    (hI : ∀ c, I c < n c) :
    Spec.tensorApply n t.op (projectTwo solve [t] a b rhs) I = rhs I := by
  rw [C76_two_factor t ht [] n a b hab hd solve ha hb rhs I hI, simpScale_eq, hs, one_mul, Finset.prod_eq_one, one_mul]
  intro c _
  split_ifs with h
  · exact hf c h _
  · rfl

/-- **C76 (refuted: one Fourier and two non-periodic directions).** The Fourier mass matrix is `c` times the identity
(`c = 2 pi` or the length of the domain). `project` then returns `c` times the projection: `B u = c rhs`. -/
theorem C76_fourier_factor (t : TPM 3 K) (ht : t.Assembled) (n : Fin 3 → ℕ)
    (hd : ∀ x, t.diag x = false ↔ x = 1 ∨ x = 2) (solve : Mat1 K → Fin 3 → Arr 3 K → Arr 3 K)
    (ha : SolvesAlong n (t.mats 1).sm.entry 1 (solve (t.mats 1) 1))
    (hb : SolvesAlong n (t.mats 2).sm.entry 2 (solve (t.mats 2) 2)) (hs : ∀ I, t.scale I = 1) (c : K)
    (hf : ∀ i, diagFactor (t.mats 0) i = c) (rhs : Arr 3 K) (I : Fin 3 → ℕ) (hI : ∀ x, I x < n x) :
    Spec.tensorApply n t.op (projectTwo solve [t] 1 2 rhs) I = c * rhs I := by
  rw [C76_two_factor t ht [] n 1 2 (by decide) hd solve ha hb rhs I hI, simpScale_eq, hs, one_mul]
  congr 1
  rw [Fin.prod_univ_three]
  have h0 : t.diag 0 = true := by
    have : ¬ t.diag 0 = false := by rw [hd]; decide
    simpa using this
  rw [h0, (hd 1).2 (Or.inl rfl), (hd 2).2 (Or.inr rfl)]
  simp [hf]

/-- **C76 (refuted: mass matrix with several terms).** Only the first of the matrices `inner(v, u)` returns is used,
whatever the others are. -/
theorem C76_only_first (solve : Mat1 K → Fin D → Arr D K → Arr D K) (t : TPM D K) (rest : List (TPM D K)) (a b : Fin D)
    (rhs : Arr D K) : projectTwo solve (t :: rest) a b rhs = projectTwo solve [t] a b rhs := rfl

theorem skipScale_eq (t : TPM D K) (axis : Fin D) (hd : ∀ c, t.diag c = false ↔ c = axis) (I : Fin D → ℕ) :
    skipScale t axis I = t.simpScale I := by
  rw [simpScale_eq, skipScale, ← List.ofFn_eq_map, List.prod_ofFn]
  congr 1
  refine Finset.prod_congr rfl fun a _ => ?_
  by_cases h : a = axis
  · rw [if_pos h, if_neg (by rw [(hd a).2 h]; simp)]
  · rw [if_neg h, if_pos]
    have : ¬ t.diag a = false := by rw [hd]; exact h
    simpa using this

/-- **C76 (the shortcut of `Project`).** When the matrix of the expression and the mass matrix are equal along the
only non-diagonal axis, `Project` skips both the product and the solve; the result still satisfies `B u = A uh`,
because neither scale varies along that axis and the mass matrix has no zero on the Fourier diagonals. -/
theorem C76_skip (A B : TPM D K) (hA : A.Assembled) (hB : B.Assembled) (n : Fin D → ℕ) (axis : Fin D)
    (hdA : ∀ c, A.diag c = false ↔ c = axis) (hdB : ∀ c, B.diag c = false ↔ c = axis)
    (heq : ∀ i < n axis, ∀ j < n axis, (A.mats axis).sm.entry i j = (B.mats axis).sm.entry i j)
    (hsA : ∀ I j, A.scale (Function.update I axis j) = A.scale I)
    (hsB : ∀ I j, B.scale (Function.update I axis j) = B.scale I)
    (hnz : ∀ I, (∀ c, I c < n c) → B.simpScale I ≠ 0) (uh : Arr D K) (I : Fin D → ℕ) (hI : ∀ c, I c < n c) :
    Spec.tensorApply n B.op (projectSkip A B axis uh) I = Spec.tensorApply n A.op uh I := by
  have hconst : ∀ t : TPM D K, (∀ c, t.diag c = false ↔ c = axis) → (∀ I j, t.scale (Function.update I axis j) = t.scale I) →
      ∀ I j, t.simpScale (Function.update I axis j) = t.simpScale I := by
    intro t hd hs I j
    rw [simpScale_eq, simpScale_eq, hs]
    congr 1
    refine Finset.prod_congr rfl fun c _ => ?_
    by_cases hc : t.diag c = true
    · have hne : c ≠ axis := by
        intro h
        rw [(hd c).2 h] at hc
        simp at hc
      rw [Function.update_of_ne hne]
    · rw [if_neg hc, if_neg hc]
  rw [tensorApply_axes B hB n [axis] (by simp) (by intro c; rw [hdB]; simp) _ I hI,
    tensorApply_axes A hA n [axis] (by simp) (by intro c; rw [hdA]; simp) _ I hI]
  simp only [List.foldr_cons, List.foldr_nil, Spec.applyAxis]
  rw [Finset.sum_mul, Finset.sum_mul]
  refine Finset.sum_congr rfl fun j hj => ?_
  have hI' : ∀ c, Function.update I axis j c < n c := by
    intro c
    by_cases hc : c = axis
    · subst hc; simpa using hj
    · rw [Function.update_of_ne hc]; exact hI c
  have hz := hnz _ hI'
  unfold projectSkip diagonalSolve
  rw [if_neg (by rw [skipScale_eq B axis hdB]; exact hz), skipScale_eq B axis hdB]
  beta_reduce
  rw [skipScale_eq A axis hdA, hconst A hdA hsA, hconst B hdB hsB, heq _ (hI axis) j (Finset.mem_range.1 hj)]
  rw [hconst B hdB hsB] at hz
  field_simp

/-- **C76 (purely Fourier).** `TPMatrix.solve` without non-diagonal axes gives `B u = rhs` wherever the diagonal is
non-zero, and zero elsewhere. -/
theorem C76_diagonal (B : TPM D K) (hB : B.Assembled) (n : Fin D → ℕ) (hd : ∀ c, B.diag c = true) (rhs : Arr D K)
    (I : Fin D → ℕ) (hI : ∀ c, I c < n c) :
    (B.simpScale I ≠ 0 → Spec.tensorApply n B.op (diagonalSolve B.simpScale rhs) I = rhs I) ∧
      (B.simpScale I = 0 → diagonalSolve B.simpScale rhs I = 0) := by
  constructor
  · intro hz
    rw [tensorApply_axes B hB n [] (by simp) (by intro c; rw [hd]; simp) _ I hI]
    simp only [List.foldr_nil, diagonalSolve, if_neg hz]
    field_simp
  · intro hz
    simp [diagonalSolve, hz]

/-! ## The hypotheses are met -/

/-- A mass matrix with a Fourier factor 6 and diagonal factors (2, 3, 4, 5) in the two other directions. -/
def exMass : TPM 3 ℚ :=
  { gidx := none,
    mats := fun a => { sm := { rows := 4, cols := 4, scale := 1, diags := [(0, if a = 0 then fun _ => 6 else fun i => i + 2)] },
                       key := 1, scalar := false, bc := false },
    scale := fun _ => 1, diag := ![true, false, false], simplified := false }

/-- Division by the diagonal: an exact one-dimensional solver for that matrix. -/
def exSolve (m : Mat1 ℚ) (a : Fin 3) (w : Arr 3 ℚ) : Arr 3 ℚ := fun I => w I / m.sm.entry (I a) (I a)

theorem exMass_entry (a : Fin 3) (ha : a ≠ 0) (i j : ℕ) :
    (exMass.mats a).sm.entry i j = if i = j then (i : ℚ) + 2 else 0 := by
  simp only [exMass, SM.entry, ha, if_false, Spec.diagsEntry, Spec.diagEntry, List.map_cons, List.map_nil, List.sum_cons,
    List.sum_nil, add_zero, one_mul]
  by_cases h : i = j
  · subst h; simp
  · simp [h]
    intro hc; omega

theorem exMass_solves (a : Fin 3) (ha : a ≠ 0) :
    SolvesAlong (fun _ => 4) (exMass.mats a).sm.entry a (exSolve (exMass.mats a) a) := by
  intro w I hI
  unfold Spec.applyAxis exSolve
  rw [Finset.sum_eq_single (I a)]
  · rw [exMass_entry a ha, Function.update_eq_self, exMass_entry a ha, if_pos rfl]
    have : ((I a : ℕ) : ℚ) + 2 ≠ 0 := by positivity
    field_simp
  · intro j _ hj
    rw [exMass_entry a ha, if_neg (Ne.symm hj), zero_mul]
  · intro h
    exact absurd (Finset.mem_range.2 (hI a)) h

/-- The 3D projection is six times too large. -/
example (rhs : Arr 3 ℚ) : Spec.tensorApply (fun _ => 4) exMass.op (projectTwo exSolve [exMass] 1 2 rhs) ![1, 2, 3]
    = 6 * rhs ![1, 2, 3] :=
  C76_fourier_factor exMass ⟨fun _ => rfl, fun a _ => ⟨_, rfl⟩⟩ (fun _ => 4)
    (by intro x; fin_cases x <;> simp [exMass]) exSolve (exMass_solves 1 (by decide)) (exMass_solves 2 (by decide))
    (fun _ => rfl) 6 (by intro i; simp [exMass, diagFactor, SM.getItem]) rhs _
    (by intro x; fin_cases x <;> simp)

/-- Fourier factor 6 in the first direction, a diagonal matrix treated as non-diagonal in the second. -/
def exSkip (c : ℚ) : TPM 2 ℚ :=
  { gidx := none,
    mats := fun a => { sm := { rows := 4, cols := 4, scale := 1, diags := [(0, if a = 0 then fun _ => 6 else fun i => i + 2)] },
                       key := 1, scalar := false, bc := false },
    scale := fun _ => c, diag := ![true, false], simplified := false }

/-- The shortcut of `Project` for `A = 5 B`. -/
example (uh : Arr 2 ℚ) : Spec.tensorApply (fun _ => 4) (exSkip 1).op (projectSkip (exSkip 5) (exSkip 1) 1 uh) ![2, 3]
    = Spec.tensorApply (fun _ => 4) (exSkip 5).op uh ![2, 3] :=
  C76_skip (exSkip 5) (exSkip 1) ⟨fun _ => rfl, fun a _ => ⟨_, rfl⟩⟩ ⟨fun _ => rfl, fun a _ => ⟨_, rfl⟩⟩ (fun _ => 4) 1
    (by intro x; fin_cases x <;> simp [exSkip]) (by intro x; fin_cases x <;> simp [exSkip]) (fun _ _ _ _ => rfl)
    (fun _ _ => rfl) (fun _ _ => rfl)
    (by
      intro I _
      rw [simpScale_eq, Fin.prod_univ_two]
      simp [exSkip, diagFactor, SM.getItem]) uh _ (by intro x; fin_cases x <;> simp)

end Shenfun
