import Verif.Model.Helmholtz2D
import Verif.Spec.Helmholtz2D
import Mathlib.Tactic.Linarith
import Mathlib.Tactic.NormNum
import Mathlib.Tactic.FieldSimp
import Mathlib.Tactic.LinearCombination
import Mathlib.Tactic.FinCases

/-!
# C73: `Helmholtz_2dirichlet`
-/

namespace Shenfun.Helm2D

open Matrix Spec

variable {n0 n1 : ℕ}

theorem cancel_both {m n : ℕ} {V : Matrix (Fin m) (Fin m) ℝ} {W : Matrix (Fin n) (Fin n) ℝ} {P : Matrix (Fin m) (Fin m) ℝ} {Q : Matrix (Fin n) (Fin n) ℝ}
    (hV : P * V = 1) (hW : W * Q = 1) {X Y : Matrix (Fin m) (Fin n) ℝ} (h : V * X * W = V * Y * W) : X = Y := by
  have : P * (V * X * W) * Q = P * (V * Y * W) * Q := by rw [h]
  have e : ∀ Z : Matrix (Fin m) (Fin n) ℝ, P * (V * Z * W) * Q = Z := fun Z => by
    calc P * (V * Z * W) * Q = (P * V) * Z * (W * Q) := by simp only [Matrix.mul_assoc]
      _ = Z := by rw [hV, hW, Matrix.one_mul, Matrix.mul_one]
  rwa [e, e] at this

/-- In the coordinates of the eigenvectors the operator is diagonal. -/
theorem helmholtz_eigh {A B : Matrix (Fin n0) (Fin n0) ℝ} {A1 B1 : Matrix (Fin n1) (Fin n1) ℝ} {ex : Eig n0} {ey : Eig n1}
    (hx : IsEigh A B ex) (hy : IsEigh A1 B1 ey) (a0 : ℝ) (W : Matrix (Fin n0) (Fin n1) ℝ) :
    ex.1ᵀ * helmholtz2D A B A1 B1 a0 1 1 (ex.1 * W * ey.1ᵀ) * ey.1 = Matrix.of fun i j => (a0 + ex.2 i + ey.2 j) * W i j := by
  have e1 : ey.1ᵀ * B1ᵀ * ey.1 = 1 := by
    have := congrArg Matrix.transpose hy.2
    rwa [transpose_mul, transpose_mul, transpose_transpose, transpose_one, ← Matrix.mul_assoc] at this
  have e2 : ex.1ᵀ * A * ex.1 = diagonal ex.2 := by
    rw [Matrix.mul_assoc, hx.1, ← Matrix.mul_assoc, ← Matrix.mul_assoc, hx.2, Matrix.one_mul]
  have e3 : ey.1ᵀ * A1ᵀ * ey.1 = diagonal ey.2 := by
    have : ey.1ᵀ * A1 * ey.1 = diagonal ey.2 := by
      rw [Matrix.mul_assoc, hy.1, ← Matrix.mul_assoc, ← Matrix.mul_assoc, hy.2, Matrix.one_mul]
    have := congrArg Matrix.transpose this
    rwa [transpose_mul, transpose_mul, transpose_transpose, diagonal_transpose, ← Matrix.mul_assoc] at this
  have g : ∀ (M : Matrix (Fin n0) (Fin n0) ℝ) (M1 : Matrix (Fin n1) (Fin n1) ℝ),
      ex.1ᵀ * (M * (ex.1 * W * ey.1ᵀ) * M1ᵀ) * ey.1 = (ex.1ᵀ * M * ex.1) * W * (ey.1ᵀ * M1ᵀ * ey.1) := fun M M1 => by
    simp only [Matrix.mul_assoc]
  unfold helmholtz2D
  rw [one_smul, one_smul, Matrix.mul_add, Matrix.mul_add, Matrix.add_mul, Matrix.add_mul, Matrix.mul_smul, Matrix.smul_mul, g, g, g, hx.2, e1, e2, e3,
    Matrix.mul_one, Matrix.mul_one, Matrix.one_mul]
  ext i j
  rw [Matrix.add_apply, Matrix.add_apply, Matrix.smul_apply, Matrix.diagonal_mul, Matrix.mul_diagonal, smul_eq_mul, Matrix.of_apply]
  ring

/-- **C73** `solver=0`: with a solution of the generalised eigenvalue problems, and unless a divisor is zero, what is returned is
the one solution of `a0 B U B1ᵀ + A U B1ᵀ + B U A1ᵀ = F`.  The scales of the second and third term are not used. -/
theorem C73_solver0 (P : Problem n0 n1) (ex : Eig n0) (ey : Eig n1) (hx : IsEigh P.A P.B ex) (hy : IsEigh P.A1 P.B1 ey)
    (hd : ∀ i j, P.a0 + ex.2 i + ey.2 j ≠ 0) (F U : Matrix (Fin n0) (Fin n1) ℝ) :
    helmholtz2D P.A P.B P.A1 P.B1 P.a0 1 1 U = F ↔ U = solve0 P.a0 ex ey F := by
  have ix : ex.1 * (ex.1ᵀ * P.B) = 1 := mul_eq_one_comm.1 hx.2
  have iy : ey.1 * (ey.1ᵀ * P.B1) = 1 := mul_eq_one_comm.1 hy.2
  have iyT : (P.B1ᵀ * ey.1) * ey.1ᵀ = 1 := by
    have := congrArg Matrix.transpose iy
    rwa [transpose_mul, transpose_mul, transpose_transpose, transpose_one] at this
  have ixT : (P.Bᵀ * ex.1) * ex.1ᵀ = 1 := by
    have := congrArg Matrix.transpose ix
    rwa [transpose_mul, transpose_mul, transpose_transpose, transpose_one] at this
  set W : Matrix (Fin n0) (Fin n1) ℝ := Matrix.of fun i j => (ex.1ᵀ * F * ey.1) i j / (P.a0 + ex.2 i + ey.2 j) with hW
  have hs : solve0 P.a0 ex ey F = ex.1 * W * ey.1ᵀ := rfl
  rw [hs]
  constructor
  · intro h
    obtain ⟨W', rfl⟩ : ∃ W', U = ex.1 * W' * ey.1ᵀ := ⟨ex.1ᵀ * P.B * U * (P.B1ᵀ * ey.1), by
      calc U = (ex.1 * (ex.1ᵀ * P.B)) * U * ((P.B1ᵀ * ey.1) * ey.1ᵀ) := by rw [ix, iyT, Matrix.one_mul, Matrix.mul_one]
        _ = _ := by simp only [Matrix.mul_assoc]⟩
    have k := helmholtz_eigh hx hy P.a0 W'
    rw [h] at k
    have : W' = W := by
      ext i j
      simp only [hW, Matrix.of_apply]
      rw [k, Matrix.of_apply, mul_div_cancel_left₀ _ (hd i j)]
    rw [this]
  · rintro rfl
    refine cancel_both ixT iy ?_
    rw [helmholtz_eigh hx hy]
    ext i j
    simp only [hW, Matrix.of_apply]
    rw [mul_div_cancel₀ _ (hd i j)]

/-- **C73** `solver=1`: with the eigenvalues of `B` (none zero), and unless one of the one-dimensional problems is singular, what
is returned is the one solution of `a0 B U B1ᵀ + U B1ᵀ + a1 B U A1ᵀ = F`.  The matrix `A` is not used, and the scale of the third term
is not used: in its place is that of the second. -/
theorem C73_solver1 (P : Problem n0 n1) (e : Eig n0) (he : IsEig P.B e) (hl : ∀ i, e.2 i ≠ 0)
    (hd : ∀ i, IsUnit ((P.a0 + 1 / e.2 i) • P.B1 + P.a1 • P.A1).det) (F U : Matrix (Fin n0) (Fin n1) ℝ) :
    helmholtz2D 1 P.B P.A1 P.B1 P.a0 1 P.a1 U = F ↔ U = solve1 P e F := by
  have iV : e.1 * e.1ᵀ = 1 := mul_eq_one_comm.1 he.2
  have eB : e.1ᵀ * P.B * e.1 = diagonal e.2 := by rw [Matrix.mul_assoc, he.1, ← Matrix.mul_assoc, he.2, Matrix.one_mul]
  set R : Matrix (Fin n0) (Fin n1) ℝ := Matrix.of fun i j => (e.1ᵀ * F) i j / e.2 i with hR
  set M : Fin n0 → Matrix (Fin n1) (Fin n1) ℝ := fun i => (P.a0 + 1 / e.2 i) • P.B1 + P.a1 • P.A1 with hM
  have key : ∀ W : Matrix (Fin n0) (Fin n1) ℝ, ∀ i j, (e.1ᵀ * helmholtz2D 1 P.B P.A1 P.B1 P.a0 1 P.a1 (e.1 * W)) i j = e.2 i * (M i *ᵥ W.row i) j := by
    intro W i j
    have g : ∀ M1 : Matrix (Fin n1) (Fin n1) ℝ, e.1ᵀ * (P.B * (e.1 * W) * M1ᵀ) = diagonal e.2 * (W * M1ᵀ) := fun M1 => by
      rw [← eB]; simp only [Matrix.mul_assoc]
    have g1 : e.1ᵀ * ((1 : Matrix (Fin n0) (Fin n0) ℝ) * (e.1 * W) * P.B1ᵀ) = W * P.B1ᵀ := by
      rw [Matrix.one_mul, ← Matrix.mul_assoc, ← Matrix.mul_assoc, he.2, Matrix.one_mul]
    have row : ∀ M1 : Matrix (Fin n1) (Fin n1) ℝ, (W * M1ᵀ) i j = (M1 *ᵥ W.row i) j := fun M1 => by
      rw [Matrix.mul_apply, Matrix.mulVec, dotProduct]
      exact Finset.sum_congr rfl fun k _ => by rw [transpose_apply, mul_comm, Matrix.row_apply]
    unfold helmholtz2D
    rw [one_smul, Matrix.mul_add, Matrix.mul_add, Matrix.mul_smul, Matrix.mul_smul, g, g, g1, Matrix.add_apply, Matrix.add_apply, Matrix.smul_apply,
      Matrix.smul_apply, Matrix.diagonal_mul, Matrix.diagonal_mul, row, row, hM, Matrix.add_mulVec, Matrix.smul_mulVec, Matrix.smul_mulVec,
      Pi.add_apply, Pi.smul_apply, Pi.smul_apply]
    simp only [smul_eq_mul]
    have := hl i
    field_simp
  have hs : solve1 P e F = e.1 * Matrix.of fun i => (M i)⁻¹ *ᵥ R.row i := rfl
  rw [hs]
  constructor
  · intro h
    obtain ⟨W, rfl⟩ : ∃ W, U = e.1 * W := ⟨e.1ᵀ * U, by rw [← Matrix.mul_assoc, iV, Matrix.one_mul]⟩
    congr 1
    have k := key W
    rw [h] at k
    have r : ∀ i, R.row i = M i *ᵥ W.row i := by
      intro i
      funext j
      rw [Matrix.row_apply, hR, Matrix.of_apply, k, mul_div_cancel_left₀ _ (hl i)]
    ext i j
    rw [Matrix.of_apply, r, Matrix.mulVec_mulVec, Matrix.nonsing_inv_mul _ (hd i), Matrix.one_mulVec, Matrix.row_apply]
  · rintro rfl
    have : e.1ᵀ * helmholtz2D 1 P.B P.A1 P.B1 P.a0 1 P.a1 (e.1 * Matrix.of fun i => (M i)⁻¹ *ᵥ R.row i) = e.1ᵀ * F := by
      ext i j
      rw [key, show (Matrix.of fun i => (M i)⁻¹ *ᵥ R.row i).row i = (M i)⁻¹ *ᵥ R.row i from rfl, Matrix.mulVec_mulVec, Matrix.mul_nonsing_inv _ (hd i),
        Matrix.one_mulVec, Matrix.row_apply, hR, Matrix.of_apply, mul_div_cancel₀ _ (hl i)]
    have h2 := congrArg (fun Z => e.1 * Z) this
    simpa only [← Matrix.mul_assoc, iV, Matrix.one_mul] using h2

/-- **C73** Hence the equation the user states, `a0 B U B1ᵀ + a1 A U B1ᵀ + a2 B U A1ᵀ = F`, is solved by the default solver when `a1 A` is the
identity and the two scales are equal: scaled Dirichlet functions, isotropic Laplacian, first axis on the reference domain. -/
theorem C73_default (P : Problem n0 n1) (e : Eig n0) (he : IsEig P.B e) (hl : ∀ i, e.2 i ≠ 0)
    (hd : ∀ i, IsUnit ((P.a0 + 1 / e.2 i) • P.B1 + P.a1 • P.A1).det) (hA : P.a1 • P.A = 1) (h2 : P.a2 = P.a1) (F U : Matrix (Fin n0) (Fin n1) ℝ) :
    helmholtz2D P.A P.B P.A1 P.B1 P.a0 P.a1 P.a2 U = F ↔ U = solve1 P e F := by
  rw [← C73_solver1 P e he hl hd]
  unfold helmholtz2D
  rw [h2, ← hA, one_smul, Matrix.smul_mul, Matrix.smul_mul]

/-- ... and by `solver=0` when both scales are one. -/
theorem C73_eigen (P : Problem n0 n1) (ex : Eig n0) (ey : Eig n1) (hx : IsEigh P.A P.B ex) (hy : IsEigh P.A1 P.B1 ey)
    (hd : ∀ i j, P.a0 + ex.2 i + ey.2 j ≠ 0) (h1 : P.a1 = 1) (h2 : P.a2 = 1) (F U : Matrix (Fin n0) (Fin n1) ℝ) :
    helmholtz2D P.A P.B P.A1 P.B1 P.a0 P.a1 P.a2 U = F ↔ U = solve0 P.a0 ex ey F := by
  rw [← C73_solver0 P ex ey hx hy hd, h1, h2]

/-! ## Histories -/

/-- What one call on a new object returns. -/
noncomputable def fresh (L : Libs) (P : Problem n0 n1) (s : Fin 2) (b : Matrix (Fin n0) (Fin n1) ℝ) : Option (Matrix (Fin n0) (Fin n1) ℝ) :=
  (call L P {} s b).1

theorem call_second (L : Libs) (P : Problem n0 n1) (s : Fin 2) (b b' : Matrix (Fin n0) (Fin n1) ℝ) :
    call L P (call L P {} s b).2 s b' = ((call L P {} s b').1, (call L P {} s b).2) ∧ (call L P {} s b).2 = (call L P {} s b').2 := by
  fin_cases s
  · by_cases h : n0 = n1
    · subst h; simp [call]
    · simp [call, h]
  · simp [call]

/-- **C73** Any number of calls with the same solver: each returns what a new object returns. -/
theorem C73_reuse (L : Libs) (P : Problem n0 n1) (s : Fin 2) (bs : List (Matrix (Fin n0) (Fin n1) ℝ)) :
    calls L P {} (bs.map fun b => (s, b)) = bs.map (fresh L P s) := by
  have aux : ∀ (b0 : Matrix (Fin n0) (Fin n1) ℝ) (l : List (Matrix (Fin n0) (Fin n1) ℝ)),
      calls L P (call L P {} s b0).2 (l.map fun b => (s, b)) = l.map (fresh L P s) := by
    intro b0 l
    induction l with
    | nil => rfl
    | cons b l ih =>
      have h := (call_second L P s b0 b).1
      simp only [List.map_cons, calls, h, ih, fresh]
  rcases bs with _ | ⟨b, l⟩
  · rfl
  · simp only [List.map_cons, calls, aux, fresh]

/-- **C73** `solver=1` first, `solver=0` afterwards: an exception (the attribute `Vx` is `None`). -/
theorem C73_mixed_crash (L : Libs) (P : Problem n0 n1) (b b' : Matrix (Fin n0) (Fin n1) ℝ) :
    (calls L P {} [(1, b), (0, b')])[1]? = some none := by
  simp [calls, call]

/-- **C73** Axes with different numbers of points, `solver=0` first, `solver=1` afterwards: an exception (the eigenvectors kept
are those of the second axis). -/
theorem C73_mixed_nonsquare (L : Libs) (P : Problem n0 n1) (hn : n0 ≠ n1) (b b' : Matrix (Fin n0) (Fin n1) ℝ) :
    (calls L P {} [(0, b), (1, b')])[1]? = some none := by
  simp [calls, call, hn]

/-- **C73** `solver=0` on one object, any number of calls, axes with different numbers of points: every call returns the solution
of the problem if the library solves the two generalised eigenvalue problems and the scales are one. -/
theorem C73_history_eigen (L : Libs) (P : Problem n0 n1) (hn : n0 ≠ n1) (hx : IsEigh P.A P.B (L.eigh n0 P.A P.B))
    (hy : IsEigh P.A1 P.B1 (L.eigh n1 P.A1 P.B1))
    (hd : ∀ i j, P.a0 + (L.eigh n0 P.A P.B).2 i + (L.eigh n1 P.A1 P.B1).2 j ≠ 0) (h1 : P.a1 = 1) (h2 : P.a2 = 1)
    (bs : List (Matrix (Fin n0) (Fin n1) ℝ)) :
    ∃ us : List (Matrix (Fin n0) (Fin n1) ℝ), calls L P {} (bs.map fun b => (0, b)) = us.map some ∧
      us.map (helmholtz2D P.A P.B P.A1 P.B1 P.a0 P.a1 P.a2) = bs := by
  refine ⟨bs.map (solve0 P.a0 (L.eigh n0 P.A P.B) (L.eigh n1 P.A1 P.B1)), ?_, ?_⟩
  · rw [C73_reuse, List.map_map]
    refine List.map_congr_left fun b _ => ?_
    simp [fresh, call, hn]
  · rw [List.map_map]
    conv_rhs => rw [← List.map_id bs]
    exact List.map_congr_left fun b _ => (C73_eigen P _ _ hx hy hd h1 h2 b _).2 rfl

/-- **C73** `solver=0` with equally many points on the two axes: the eigenvectors of the first axis are used for both, which is
right when the matrices of the two axes are the same. -/
theorem C73_history_eigen_square {n : ℕ} (L : Libs) (P : Problem n n) (hA : P.A1 = P.A) (hB : P.B1 = P.B)
    (hx : IsEigh P.A P.B (L.eigh n P.A P.B)) (hd : ∀ i j, P.a0 + (L.eigh n P.A P.B).2 i + (L.eigh n P.A P.B).2 j ≠ 0)
    (h1 : P.a1 = 1) (h2 : P.a2 = 1) (bs : List (Matrix (Fin n) (Fin n) ℝ)) :
    ∃ us : List (Matrix (Fin n) (Fin n) ℝ), calls L P {} (bs.map fun b => (0, b)) = us.map some ∧
      us.map (helmholtz2D P.A P.B P.A1 P.B1 P.a0 P.a1 P.a2) = bs := by
  have hc : (L.eigh n P.A P.B).cast rfl = L.eigh n P.A P.B := by
    simp [Eig.cast]
  refine ⟨bs.map (solve0 P.a0 (L.eigh n P.A P.B) (L.eigh n P.A P.B)), ?_, ?_⟩
  · rw [C73_reuse, List.map_map]
    refine List.map_congr_left fun b _ => ?_
    simp [fresh, call, hc]
  · rw [List.map_map]
    conv_rhs => rw [← List.map_id bs]
    exact List.map_congr_left fun b _ => (C73_eigen P _ _ hx (by rw [hA, hB]; exact hx) hd h1 h2 b _).2 rfl

/-- **C73** `solver=1` on one object, any number of calls. -/
theorem C73_history_default (L : Libs) (P : Problem n0 n1) (he : IsEig P.B (L.banded n0 P.B)) (hl : ∀ i, (L.banded n0 P.B).2 i ≠ 0)
    (hd : ∀ i, IsUnit ((P.a0 + 1 / (L.banded n0 P.B).2 i) • P.B1 + P.a1 • P.A1).det) (hA : P.a1 • P.A = 1) (h2 : P.a2 = P.a1)
    (bs : List (Matrix (Fin n0) (Fin n1) ℝ)) :
    ∃ us : List (Matrix (Fin n0) (Fin n1) ℝ), calls L P {} (bs.map fun b => (1, b)) = us.map some ∧
      us.map (helmholtz2D P.A P.B P.A1 P.B1 P.a0 P.a1 P.a2) = bs := by
  refine ⟨bs.map (solve1 P (L.banded n0 P.B)), ?_, ?_⟩
  · rw [C73_reuse, List.map_map]
    refine List.map_congr_left fun b _ => ?_
    simp [fresh, call]
  · rw [List.map_map]
    conv_rhs => rw [← List.map_id bs]
    exact List.map_congr_left fun b _ => (C73_default P _ he hl hd hA h2 b _).2 rfl

/-- One by one matrices. -/
def mat1 (a : ℝ) : Matrix (Fin 1) (Fin 1) ℝ := Matrix.of fun _ _ => a

theorem mat1_apply (a : ℝ) (i j : Fin 1) : mat1 a i j = a := rfl

theorem mul1 (A B : Matrix (Fin 1) (Fin 1) ℝ) : (A * B) 0 0 = A 0 0 * B 0 0 := by
  rw [Matrix.mul_apply, Fin.sum_univ_one]

theorem ext1 {A B : Matrix (Fin 1) (Fin 1) ℝ} (h : A 0 0 = B 0 0) : A = B := by
  ext i j
  rw [Subsingleton.elim i 0, Subsingleton.elim j 0, h]

/-- Correct eigenvalue routines for the matrix `A = (1)`, `B = (4)` of size one (any others for other sizes). -/
noncomputable def libs1 : Libs where
  eigh := fun _ _ _ => (Matrix.of fun _ _ => 1 / 2, fun _ => 1 / 4)
  banded := fun _ _ => (Matrix.of fun _ _ => 1, fun _ => 4)

/-- `A = A1 = (1)`, `B = B1 = (4)`, all scales one. -/
def prob1 : Problem 1 1 := ⟨mat1 1, mat1 4, mat1 1, mat1 4, 1, 1, 1⟩

theorem libs1_eigh : IsEigh prob1.A prob1.B (libs1.eigh 1 prob1.A prob1.B) := by
  constructor <;> apply ext1
  · rw [mul1, mul1, mul1, Matrix.diagonal_apply_eq]
    simp only [prob1, libs1, mat1_apply, Matrix.of_apply]
    norm_num
  · rw [mul1, mul1, Matrix.transpose_apply, Matrix.one_apply_eq]
    simp only [prob1, libs1, mat1_apply, Matrix.of_apply]
    norm_num

theorem libs1_banded : IsEig prob1.B (libs1.banded 1 prob1.B) := by
  constructor <;> apply ext1
  · rw [mul1, mul1, Matrix.diagonal_apply_eq]
    simp only [prob1, libs1, mat1_apply, Matrix.of_apply]
    norm_num
  · rw [mul1, Matrix.transpose_apply, Matrix.one_apply_eq]
    simp only [prob1, libs1, mat1_apply, Matrix.of_apply]
    norm_num

theorem inv1 (M : Matrix (Fin 1) (Fin 1) ℝ) (v : Fin 1 → ℝ) (h : M 0 0 ≠ 0) : (M⁻¹ *ᵥ v) 0 = v 0 / M 0 0 := by
  have hu : IsUnit M.det := by rw [Matrix.det_fin_one]; exact isUnit_iff_ne_zero.2 h
  have e : v = M *ᵥ fun _ => v 0 / M 0 0 := by
    funext i
    rw [Subsingleton.elim i 0, Matrix.mulVec, dotProduct, Fin.sum_univ_one, mul_div_cancel₀ _ h]
  conv_lhs => rw [e]
  rw [Matrix.mulVec_mulVec, Matrix.nonsing_inv_mul _ hu, Matrix.one_mulVec]

theorem solve1_one (P : Problem 1 1) (e : Eig 1) (b : Matrix (Fin 1) (Fin 1) ℝ) (h : (P.a0 + 1 / e.2 0) * P.B1 0 0 + P.a1 * P.A1 0 0 ≠ 0) :
    solve1 P e b 0 0 = e.1 0 0 * ((e.1 0 0 * b 0 0 / e.2 0) / ((P.a0 + 1 / e.2 0) * P.B1 0 0 + P.a1 * P.A1 0 0)) := by
  unfold solve1
  rw [mul1, Matrix.of_apply, inv1 _ _ h, Matrix.row_apply, Matrix.of_apply, mul1, Matrix.transpose_apply]
  rfl

theorem solve0_one (a0 : ℝ) (ex ey : Eig 1) (b : Matrix (Fin 1) (Fin 1) ℝ) :
    solve0 a0 ex ey b 0 0 = ex.1 0 0 * (ex.1 0 0 * b 0 0 * ey.1 0 0 / (a0 + ex.2 0 + ey.2 0)) * ey.1 0 0 := by
  unfold solve0
  rw [mul1, mul1, Matrix.of_apply, mul1, mul1, Matrix.transpose_apply, Matrix.transpose_apply]

theorem fresh_one : fresh libs1 prob1 1 (mat1 24) = some (mat1 1) := by
  unfold fresh call
  simp only [Fin.isValue, one_ne_zero, if_false]
  refine congrArg some (ext1 ?_)
  rw [solve1_one]
  · simp only [prob1, libs1, mat1_apply, Matrix.of_apply]
    norm_num
  · simp only [prob1, libs1, mat1_apply]
    norm_num

/-- On this problem both solvers are right on a new object: `(16 + 4 + 4) u = 24`. -/
example : fresh libs1 prob1 1 (mat1 24) = some (mat1 1) ∧ fresh libs1 prob1 0 (mat1 24) = some (mat1 1) := by
  refine ⟨fresh_one, ?_⟩
  unfold fresh call
  simp only [Fin.isValue, if_true, dite_true]
  refine congrArg some (ext1 ?_)
  rw [solve0_one]
  simp only [prob1, libs1, mat1_apply, Eig.cast, Matrix.reindex_apply, Matrix.submatrix_apply, Matrix.of_apply]
  norm_num

/-- **C73** Refuted: `solver=0` first, `solver=1` afterwards takes the eigenvectors of the other problem and returns a wrong array,
without an exception. -/
theorem C73_mixed_refuted : (calls libs1 prob1 {} [(0, mat1 24), (1, mat1 24)])[1]? ≠ some (fresh libs1 prob1 1 (mat1 24)) := by
  rw [fresh_one]
  have e2 : (calls libs1 prob1 {} [(0, mat1 24), (1, mat1 24)])[1]? = some (some (solve1 prob1 (libs1.eigh 1 prob1.A prob1.B) (mat1 24))) := by
    simp [calls, call]
  rw [e2]
  intro h
  have h := congrFun (congrFun (Option.some.inj (Option.some.inj h)) 0) 0
  rw [solve1_one _ _ _ (by simp only [prob1, libs1, mat1_apply]; norm_num)] at h
  simp only [prob1, libs1, mat1_apply, Matrix.of_apply] at h
  norm_num at h

/-- The matrices and scales of the form `inner(v, -div(grad(u))) + inner(v, u)`, as in the repository's demo: the tabulated matrix is
minus the stiffness matrix, the scale is minus one. -/
def probDiv : Problem 1 1 := ⟨mat1 (-1), mat1 4, mat1 (-1), mat1 4, 1, -1, -1⟩

/-- **C73** Refuted: on that form `solver=0` does not return the solution, whatever correct eigenvalue routine is used. -/
theorem C73_scales_refuted (ex ey : Eig 1) (hx : IsEigh probDiv.A probDiv.B ex) (hy : IsEigh probDiv.A1 probDiv.B1 ey) :
    helmholtz2D probDiv.A probDiv.B probDiv.A1 probDiv.B1 probDiv.a0 probDiv.a1 probDiv.a2 (solve0 probDiv.a0 ex ey (mat1 24)) ≠ mat1 24 := by
  have l : ∀ e : Eig 1, IsEigh (mat1 (-1)) (mat1 4) e → e.2 0 = -1 / 4 := by
    intro e he
    have a := congrFun (congrFun he.1 0) 0
    have b := congrFun (congrFun he.2 0) 0
    rw [mul1, mul1, mul1, Matrix.diagonal_apply_eq, mat1_apply, mat1_apply] at a
    rw [mul1, mul1, Matrix.transpose_apply, Matrix.one_apply_eq, mat1_apply] at b
    have : e.1 0 0 ≠ 0 := by intro h; rw [h] at b; norm_num at b
    have c : e.1 0 0 * (4 * e.2 0 + 1) = 0 := by linear_combination -a
    rcases mul_eq_zero.1 c with c | c
    · exact absurd c this
    · linarith
  have lx := l ex hx
  have ly := l ey hy
  have hd : ∀ i j, probDiv.a0 + ex.2 i + ey.2 j ≠ 0 := by
    intro i j
    fin_cases i; fin_cases j
    simp only [Fin.zero_eta, lx, ly, probDiv]
    norm_num
  intro h
  have h0 := (C73_solver0 probDiv ex ey hx hy hd (mat1 24) _).2 rfl
  have a := congrFun (congrFun h 0) 0
  have b := congrFun (congrFun h0 0) 0
  simp only [helmholtz2D, Matrix.add_apply, Matrix.smul_apply, mul1, Matrix.transpose_apply, probDiv, mat1_apply, smul_eq_mul, Matrix.one_apply_eq] at a b
  linarith

/-- The default solver is right on that form: the hypotheses of `C73_default` hold. -/
example : probDiv.a1 • probDiv.A = 1 ∧ probDiv.a2 = probDiv.a1 ∧ IsEig probDiv.B (libs1.banded 1 probDiv.B) := by
  refine ⟨?_, rfl, ?_⟩
  · apply ext1; rw [Matrix.smul_apply, Matrix.one_apply_eq]; simp only [probDiv, mat1_apply, smul_eq_mul]; norm_num
  · exact libs1_banded

/-- The same form with the first axis on a domain of half the length: the stiffness matrix is twice as large, the mass matrix half
as large. -/
noncomputable def probDomain : Problem 1 1 := ⟨mat1 (-2), mat1 2, mat1 (-1), mat1 4, 1, -1, -1⟩

/-- **C73** Refuted: with the first axis on another domain than the reference domain the default solver does not return the
solution, whatever correct eigenvalue routine is used. -/
theorem C73_domain_refuted (e : Eig 1) (he : IsEig probDomain.B e) :
    helmholtz2D probDomain.A probDomain.B probDomain.A1 probDomain.B1 probDomain.a0 probDomain.a1 probDomain.a2 (solve1 probDomain e (mat1 24)) ≠ mat1 24 := by
  have l : e.2 0 = 2 := by
    have a := congrFun (congrFun he.1 0) 0
    have b := congrFun (congrFun he.2 0) 0
    rw [mul1, mul1, Matrix.diagonal_apply_eq, show probDomain.B 0 0 = 2 from rfl] at a
    rw [mul1, Matrix.transpose_apply, Matrix.one_apply_eq] at b
    have : e.1 0 0 ≠ 0 := by intro h; rw [h] at b; norm_num at b
    have c : e.1 0 0 * (e.2 0 - 2) = 0 := by linear_combination -a
    rcases mul_eq_zero.1 c with c | c
    · exact absurd c this
    · linarith
  have hl : ∀ i, e.2 i ≠ 0 := by intro i; fin_cases i; simp only [Fin.zero_eta, l]; norm_num
  have hd : ∀ i, IsUnit ((probDomain.a0 + 1 / e.2 i) • probDomain.B1 + probDomain.a1 • probDomain.A1).det := by
    intro i
    fin_cases i
    rw [Matrix.det_fin_one]
    simp [probDomain, mat1, l]
    norm_num
  intro h
  have h0 := (C73_solver1 probDomain e he hl hd (mat1 24) _).2 rfl
  have a := congrFun (congrFun h 0) 0
  have b := congrFun (congrFun h0 0) 0
  simp only [helmholtz2D, Matrix.add_apply, Matrix.smul_apply, mul1, Matrix.transpose_apply, probDomain, mat1_apply, smul_eq_mul, Matrix.one_apply_eq] at a b
  linarith

/-- The one-dimensional correct result of `eig_banded` exists. -/
example : IsEig probDomain.B ((Matrix.of fun _ _ => 1, fun _ => 2) : Eig 1) := by
  constructor <;> apply ext1
  · rw [mul1, mul1, Matrix.diagonal_apply_eq, show probDomain.B 0 0 = 2 from rfl]; simp
  · rw [mul1, Matrix.transpose_apply, Matrix.one_apply_eq]; simp

end Shenfun.Helm2D
