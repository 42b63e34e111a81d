import Verif.Model.DirectSolvers
import Verif.Spec.DirectSolvers
import Mathlib.Tactic.Ring
import Mathlib.Tactic.NormNum
import Mathlib.Tactic.LinearCombination
import Mathlib.Algebra.Field.Rat
import Mathlib.LinearAlgebra.Matrix.Notation

/-!
# C74: the direct sparse solvers, constraints and histories of calls
-/

namespace Shenfun.Direct

open Spec Matrix

set_option linter.unusedSectionVars false

variable {K : Type*} [Field K] [DecidableEq K] {n : ℕ}

/-! ## Constrained matrices and right-hand sides -/

theorem identRow_replace (A : Matrix (Fin n) (Fin n) K) (R : Finset (Fin n)) (r : Fin n) :
    identRow (replaceRows A R) r = replaceRows A (insert r R) := by
  ext i j
  unfold identRow replaceRows
  rw [Matrix.updateRow_apply]
  simp only [Matrix.of_apply, Finset.mem_insert]
  by_cases h : i = r
  · subst h
    simp [Pi.single_apply, eq_comm]
  · simp [h]

theorem constrainMat_replace (A : Matrix (Fin n) (Fin n) K) (cons : List (Fin n × K)) : ∀ R : Finset (Fin n),
    constrainMat (replaceRows A R) cons = replaceRows A (R ∪ rowsOf cons) := by
  induction cons with
  | nil => intro R; simp [constrainMat, rowsOf]
  | cons c cs ih =>
    intro R
    have h := ih (insert c.1 R)
    unfold constrainMat at h ⊢
    rw [List.foldl_cons, identRow_replace, h]
    congr 1
    ext i
    simp [rowsOf]

theorem replaceRows_empty (A : Matrix (Fin n) (Fin n) K) : replaceRows A ∅ = A := by
  ext i j; simp [replaceRows]

theorem constrainMat_eq (A : Matrix (Fin n) (Fin n) K) (cons : List (Fin n × K)) :
    constrainMat A cons = replaceRows A (rowsOf cons) := by
  have h := constrainMat_replace A cons ∅
  rwa [replaceRows_empty, Finset.empty_union] at h

theorem constrainRhs_notMem (cons : List (Fin n × K)) : ∀ (b : Fin n → K) (i : Fin n), i ∉ rowsOf cons →
    constrainRhs b cons i = b i := by
  induction cons with
  | nil => intro b i _; rfl
  | cons c cs ih =>
    intro b i hi
    have h1 : i ≠ c.1 := fun h => hi (by simp [rowsOf, h])
    have h2 : i ∉ rowsOf cs := fun h => hi (by simp [rowsOf] at h ⊢; exact Or.inr h)
    have h := ih (Function.update b c.1 c.2) i h2
    unfold constrainRhs at h ⊢
    rw [List.foldl_cons, h, Function.update_of_ne h1]

theorem constrainRhs_mem (cons : List (Fin n × K)) : ∀ (b : Fin n → K), (cons.map Prod.fst).Nodup →
    ∀ c ∈ cons, constrainRhs b cons c.1 = c.2 := by
  induction cons with
  | nil => intro b _ c hc; exact absurd hc (by simp)
  | cons d cs ih =>
    intro b hd c hc
    rw [List.map_cons, List.nodup_cons] at hd
    rcases List.mem_cons.1 hc with rfl | hc
    · have h := constrainRhs_notMem cs (Function.update b c.1 c.2) c.1 (by
        intro h; exact hd.1 (List.mem_toFinset.1 h))
      unfold constrainRhs at h ⊢
      rw [List.foldl_cons, h, Function.update_self]
    · have h := ih (Function.update b d.1 d.2) hd.2 c hc
      unfold constrainRhs at h ⊢
      rwa [List.foldl_cons]

theorem mem_rowsOf (cons : List (Fin n × K)) (i : Fin n) : i ∈ rowsOf cons ↔ ∃ c ∈ cons, c.1 = i := by
  simp [rowsOf]

/-- Solving with replaced rows: identity equations in `R`, the equations of `A` elsewhere. -/
theorem replaceRows_mulVec (A : Matrix (Fin n) (Fin n) K) (R : Finset (Fin n)) (u : Fin n → K) (i : Fin n) :
    (replaceRows A R).mulVec u i = if i ∈ R then u i else A.mulVec u i := by
  unfold replaceRows Matrix.mulVec dotProduct
  by_cases h : i ∈ R
  · simp [h]
  · simp [h]

theorem Lu.solve_spec (A : Matrix (Fin n) (Fin n) K) (hA : A.det ≠ 0) (b : Fin n → K) :
    A.mulVec ((⟨A⟩ : Lu n K).solve b) = b := by
  unfold Lu.solve
  rw [Matrix.mulVec_mulVec, Matrix.mul_nonsing_inv _ (isUnit_iff_ne_zero.2 hA), Matrix.one_mulVec]

theorem splu_some (A : Matrix (Fin n) (Fin n) K) (hA : A.det ≠ 0) : splu A = some ⟨A⟩ := by
  unfold splu; rw [if_neg hA]

theorem splu_none (A : Matrix (Fin n) (Fin n) K) (hA : A.det = 0) : splu A = none := by
  unfold splu; rw [if_pos hA]

/-- A factorization of the matrix with rows `R1` replaced, used with a right-hand side constrained by `cons`. -/
theorem solve_rows (A : Matrix (Fin n) (Fin n) K) (R : Finset (Fin n)) (hA : (replaceRows A R).det ≠ 0)
    (g : Fin n → K) (i : Fin n) :
    (if i ∈ R then (⟨replaceRows A R⟩ : Lu n K).solve g i
      else A.mulVec ((⟨replaceRows A R⟩ : Lu n K).solve g) i) = g i := by
  rw [← replaceRows_mulVec, Lu.solve_spec _ hA]

theorem solve_constrained (A : Matrix (Fin n) (Fin n) K) (cons : List (Fin n × K)) (R : Finset (Fin n))
    (hR : rowsOf cons = R) (hd : (cons.map Prod.fst).Nodup)
    (hA : (replaceRows A R).det ≠ 0) (b : Fin n → K) :
    SolvesWith A cons b ((⟨replaceRows A R⟩ : Lu n K).solve (constrainRhs b cons)) := by
  constructor
  · intro c hc
    have h := solve_rows A R hA (constrainRhs b cons) c.1
    rw [if_pos (by rw [← hR]; exact (mem_rowsOf _ _).2 ⟨c, hc, rfl⟩), constrainRhs_mem cons b hd c hc] at h
    exact h
  · intro i hi
    have hn : i ∉ rowsOf cons := fun h => by
      obtain ⟨c, hc, e⟩ := (mem_rowsOf _ _).1 h
      exact hi c hc e
    have h := solve_rows A R hA (constrainRhs b cons) i
    rw [if_neg (by rw [← hR]; exact hn), constrainRhs_notMem cons b i hn] at h
    exact h

/-- The constrained problem has one solution when its matrix is nonsingular. -/
theorem solvesWith_unique (A : Matrix (Fin n) (Fin n) K) (cons : List (Fin n × K))
    (hA : (replaceRows A (rowsOf cons)).det ≠ 0) (b u v : Fin n → K) (hu : SolvesWith A cons b u)
    (hv : SolvesWith A cons b v) : u = v := by
  have h : (replaceRows A (rowsOf cons)).mulVec u = (replaceRows A (rowsOf cons)).mulVec v := by
    funext i
    rw [replaceRows_mulVec, replaceRows_mulVec]
    by_cases hi : i ∈ rowsOf cons
    · obtain ⟨c, hc, rfl⟩ := (mem_rowsOf _ _).1 hi
      rw [if_pos hi, if_pos hi, hu.1 c hc, hv.1 c hc]
    · rw [if_neg hi, if_neg hi]
      have h' : ∀ c ∈ cons, c.1 ≠ i := fun c hc e => hi ((mem_rowsOf _ _).2 ⟨c, hc, e⟩)
      rw [hu.2 i h', hv.2 i h']
  have hi := congrArg (replaceRows A (rowsOf cons))⁻¹.mulVec h
  rwa [Matrix.mulVec_mulVec, Matrix.mulVec_mulVec, Matrix.nonsing_inv_mul _ (isUnit_iff_ne_zero.2 hA),
    Matrix.one_mulVec, Matrix.one_mulVec] at hi

/-! ## Solver2D -/

/-- The state of a `Solver2D` all of whose calls constrained the rows `R`. -/
def S2.Inv (A : Matrix (Fin n) (Fin n) K) (R : Finset (Fin n)) (s : S2 n K) : Prop :=
  (s = ⟨A, none⟩) ∨ (s.mat = replaceRows A R ∧ (s.lu = none ∨ s.lu = some ⟨replaceRows A R⟩))

theorem S2.call_inv (A : Matrix (Fin n) (Fin n) K) (R : Finset (Fin n)) (hA : (replaceRows A R).det ≠ 0) (s : S2 n K)
    (hs : S2.Inv A R s) (b : Fin n → K) (cons : List (Fin n × K)) (hR : rowsOf cons = R) :
    (s.call b cons).1 = ⟨replaceRows A R, some ⟨replaceRows A R⟩⟩ ∧
      (s.call b cons).2 = some ((⟨replaceRows A R⟩ : Lu n K).solve (constrainRhs b cons)) := by
  have hm : constrainMat s.mat cons = replaceRows A R := by
    rcases hs with rfl | ⟨hm, -⟩
    · rw [constrainMat_eq, hR]
    · rw [hm, constrainMat_replace, hR, Finset.union_self]
  have hl : s.lu = none ∨ s.lu = some ⟨replaceRows A R⟩ := by
    rcases hs with rfl | ⟨-, h⟩
    · exact Or.inl rfl
    · exact h
  unfold S2.call
  simp only [hm]
  rcases hl with h | h
  · rw [h, splu_some _ hA]; exact ⟨rfl, rfl⟩
  · rw [h]; exact ⟨rfl, rfl⟩

/-- **C74 (Solver2D / Solver3D / SolverND).** For every history of calls that constrain the same rows (every call
with its own values and right-hand side; no rows at all is a special case), every call returns the solution of its
own constrained problem for the original matrix. -/
theorem C74_solver2d (A : Matrix (Fin n) (Fin n) K) (R : Finset (Fin n)) (hA : (replaceRows A R).det ≠ 0)
    (calls : List ((Fin n → K) × List (Fin n × K)))
    (hR : ∀ c ∈ calls, rowsOf c.2 = R ∧ (c.2.map Prod.fst).Nodup) :
    List.Forall₂ (fun c r => ∃ u, r = some u ∧ SolvesWith A c.2 c.1 u) calls ((S2.new A).run calls).2 := by
  suffices h : ∀ s : S2 n K, S2.Inv A R s →
      List.Forall₂ (fun c r => ∃ u, r = some u ∧ SolvesWith A c.2 c.1 u) calls (s.run calls).2 from
    h _ (Or.inl rfl)
  induction calls with
  | nil => intro s _; exact List.Forall₂.nil
  | cons c cs ih =>
    intro s hs
    obtain ⟨h1, h2⟩ := hR c (by simp)
    obtain ⟨e1, e2⟩ := S2.call_inv A R hA s hs c.1 c.2 h1
    refine List.Forall₂.cons ⟨_, e2, solve_constrained A c.2 R h1 h2 hA c.1⟩ ?_
    refine ih (fun d hd => hR d (List.mem_cons_of_mem _ hd)) _ (Or.inr ?_)
    rw [e1]
    exact ⟨rfl, Or.inr rfl⟩

/-- Nonsingularity is not an artefact: the first call raises exactly when the constrained matrix is singular, and
a raise leaves a solver that can be called again with (more) constraints. -/
theorem C74_solver2d_singular (A : Matrix (Fin n) (Fin n) K) (b : Fin n → K) (cons : List (Fin n × K)) :
    ((S2.new A).call b cons).2 = none ↔ (replaceRows A (rowsOf cons)).det = 0 := by
  unfold S2.call S2.new
  simp only [constrainMat_eq]
  by_cases h : (replaceRows A (rowsOf cons)).det = 0
  · simp [splu_none _ h, h]
  · simp [splu_some _ h, h]

/-- **C74 (retry).** A first call without constraints on a singular matrix raises; calling the same solver again
with constraints that make the problem solvable then works. -/
theorem C74_solver2d_retry (A : Matrix (Fin n) (Fin n) K) (hs : A.det = 0) (b b' : Fin n → K)
    (cons : List (Fin n × K)) (hd : (cons.map Prod.fst).Nodup) (hA : (replaceRows A (rowsOf cons)).det ≠ 0) :
    ((S2.new A).call b []).2 = none ∧
      ∃ u, (((S2.new A).call b []).1.call b' cons).2 = some u ∧ SolvesWith A cons b' u := by
  have h0 : (S2.new A).call b [] = (⟨A, none⟩, none) := by
    unfold S2.call S2.new
    simp [constrainMat, splu_none _ hs]
  rw [h0]
  refine ⟨rfl, ?_⟩
  obtain ⟨-, e⟩ := S2.call_inv A (rowsOf cons) hA ⟨A, none⟩ (Or.inl rfl) b' cons rfl
  exact ⟨_, e, solve_constrained A cons _ rfl hd hA b'⟩

/-- **C74 (what a later call does).** Once factored with the rows of the first call, a later call with other
constraints keeps the *old* identity rows and applies the *new* values only to the right-hand side. -/
theorem C74_solver2d_later (A : Matrix (Fin n) (Fin n) K) (b1 b2 : Fin n → K) (cons1 cons2 : List (Fin n × K))
    (hA : (replaceRows A (rowsOf cons1)).det ≠ 0) :
    ∃ u, (((S2.new A).call b1 cons1).1.call b2 cons2).2 = some u ∧
      ∀ i, (if i ∈ rowsOf cons1 then u i else A.mulVec u i) = constrainRhs b2 cons2 i := by
  obtain ⟨e, -⟩ := S2.call_inv A (rowsOf cons1) hA (S2.new A) (Or.inl rfl) b1 cons1 rfl
  rw [e]
  exact ⟨(⟨replaceRows A (rowsOf cons1)⟩ : Lu n K).solve (constrainRhs b2 cons2), rfl,
    fun i => solve_rows A _ hA _ i⟩

/-- The full statement a user would expect of a reusable solver: every call of every history returns the solution
of its own constrained problem. -/
def C74Full : Prop :=
  ∀ (n : ℕ) (A : Matrix (Fin n) (Fin n) ℚ) (calls : List ((Fin n → ℚ) × List (Fin n × ℚ))),
    (∀ c ∈ calls, (replaceRows A (rowsOf c.2)).det ≠ 0 ∧ (c.2.map Prod.fst).Nodup) →
    List.Forall₂ (fun c r => ∃ u, r = some u ∧ SolvesWith A c.2 c.1 u) calls ((S2.new A).run calls).2

/-- **C74 (refuted).** It fails: for the matrix (2), a call without constraints followed by a call with the
constraint `(0, 1)` returns `u[0] = 1/2`. -/
theorem C74_full_refuted : ¬ C74Full := by
  intro h
  have hdet : ∀ R : Finset (Fin 1), (replaceRows (Matrix.of fun _ _ => (2 : ℚ)) R).det ≠ 0 := by
    intro R
    rw [Matrix.det_fin_one]
    unfold replaceRows
    simp only [Matrix.of_apply]
    split_ifs <;> norm_num at *
  have := h 1 (Matrix.of fun _ _ => 2) [((fun _ => 2), []), ((fun _ => 2), [(0, 1)])] (by
    intro c hc
    refine ⟨hdet _, ?_⟩
    rcases List.mem_cons.1 hc with rfl | hc
    · simp
    · rcases List.mem_cons.1 hc with rfl | hc
      · simp
      · simp at hc)
  rw [S2.run, S2.run, S2.run] at this
  cases this with
  | cons _ h2 =>
    cases h2 with
    | cons h3 _ =>
      obtain ⟨u, e, hu⟩ := h3
      have hl := C74_solver2d_later (K := ℚ) (Matrix.of fun _ _ => 2) (fun _ : Fin 1 => 2) (fun _ => 2) [] [(0, 1)]
        (hdet _)
      obtain ⟨v, ev, hv⟩ := hl
      rw [ev] at e
      obtain rfl := Option.some.inj e
      have h1 := hu.1 (0, 1) (by simp)
      have h2 := hv 0
      simp [rowsOf, constrainRhs, Matrix.mulVec, dotProduct] at h1 h2
      rw [h1] at h2
      norm_num at h2

/-- **C74 (refuted: dropping the constraint).** The other order is also wrong: after a constrained call, a call
without constraints returns `u[row] = b[row]` for the rows of the first call. -/
theorem C74_unconstrained_after (A : Matrix (Fin n) (Fin n) K) (b1 b2 : Fin n → K) (cons : List (Fin n × K))
    (hA : (replaceRows A (rowsOf cons)).det ≠ 0) (r : Fin n) (hr : r ∈ rowsOf cons) :
    ∃ u, (((S2.new A).call b1 cons).1.call b2 []).2 = some u ∧ u r = b2 r := by
  obtain ⟨u, e, h⟩ := C74_solver2d_later A b1 b2 cons [] hA
  refine ⟨u, e, ?_⟩
  have h := h r
  rw [if_pos hr] at h
  exact h

/-- **C74 (matvec after a constrained solve).** `Solver2D.matvec` then multiplies with the constrained matrix: its
rows `row` return `u[row]`, the other rows those of `A`. -/
theorem C74_matvec_after (A : Matrix (Fin n) (Fin n) K) (b u : Fin n → K) (cons : List (Fin n × K)) (i : Fin n) :
    ((S2.new A).call b cons).1.matvec u i = if i ∈ rowsOf cons then u i else A.mulVec u i := by
  have h : ((S2.new A).call b cons).1.mat = replaceRows A (rowsOf cons) := by
    unfold S2.call S2.new
    simp only [constrainMat_eq]
    cases splu (replaceRows A (rowsOf cons)) <;> rfl
  unfold S2.matvec
  rw [h, replaceRows_mulVec]

/-! ## SolverGeneric2ND -/

theorem flatten_unflatten (d0 d1 : ℕ) (u : Arr2 K) (x : Fin (d0 * d1) → K) :
    flatten2 d0 d1 (unflatten2 d0 d1 u x) = x := by
  funext k
  have hd : 0 < d1 := by
    rcases Nat.eq_zero_or_pos d1 with h | h
    · have := k.2; simp [h] at this
    · exact h
  have h1 : (k : ℕ) / d1 < d0 := Nat.div_lt_of_lt_mul (lt_of_lt_of_eq k.2 (mul_comm _ _))
  have h2 : (k : ℕ) % d1 < d1 := Nat.mod_lt _ hd
  unfold flatten2 unflatten2
  rw [dif_pos ⟨h1, h2⟩]
  congr 1
  apply Fin.ext
  show (k : ℕ) / d1 * d1 + (k : ℕ) % d1 = k
  rw [mul_comm]
  exact Nat.div_add_mod _ _

theorem unflatten_outside (d0 d1 : ℕ) (u : Arr2 K) (x : Fin (d0 * d1) → K) (i j : ℕ) (h : ¬ (i < d0 ∧ j < d1)) :
    unflatten2 d0 d1 u x i j = u i j := by
  unfold unflatten2; rw [dif_neg h]

/-- A fresh or an already factored solver that has never seen a constraint. -/
def G2.Clean {n : ℕ} (A : Matrix (Fin n) (Fin n) K) (s : G2 n K) : Prop :=
  s.mat = A ∧ (s.lu = none ∨ s.lu = some ⟨A⟩)

/-- **C74 (SolverGeneric2ND without constraints).** Every call on a solver that has never been constrained returns
the solution of `A u = b` on the degrees of freedom, does not touch the rest of `u` nor `b`, and leaves a solver of
the same kind. -/
theorem C74_generic2nd {d0 d1 : ℕ} (n0 : ℕ) (A : Matrix (Fin (d0 * d1)) (Fin (d0 * d1)) K) (hA : A.det ≠ 0)
    (s : G2 (d0 * d1) K) (hs : G2.Clean A s) (b u : Arr2 K) :
    ∃ s' u', s.call n0 b u [] = some (s', b, u') ∧ G2.Clean A s' ∧
      A.mulVec (flatten2 d0 d1 u') = flatten2 d0 d1 b ∧ ∀ i j, ¬ (i < d0 ∧ j < d1) → u' i j = u i j := by
  obtain ⟨hm, hl⟩ := hs
  have hl' : s.lu.orElse (fun _ => splu s.mat) = some ⟨A⟩ := by
    rcases hl with h | h
    · rw [h, hm, splu_some _ hA]; rfl
    · rw [h]; rfl
  refine ⟨⟨s.mat, some ⟨A⟩⟩, unflatten2 d0 d1 u ((⟨A⟩ : Lu _ K).solve (flatten2 d0 d1 b)), ?_, ⟨hm, Or.inr rfl⟩, ?_,
    fun i j h => unflatten_outside _ _ _ _ _ _ h⟩
  · unfold G2.call
    simp only [List.foldlM_nil]
    simp only [pure, hl']
  · rw [flatten_unflatten, Lu.solve_spec _ hA]

/-- **C74 (SolverGeneric2ND with one constraint: what it does).** On a fresh solver the constraint `(row, val)`
makes equation number `row` of the flattened system an identity equation, but overwrites the right-hand sides of all
equations `(row, 0), ..., (row, d1-1)` of the two-dimensional array. -/
theorem C74_generic2nd_constraint {d0 d1 : ℕ} (n0 : ℕ) (A : Matrix (Fin (d0 * d1)) (Fin (d0 * d1)) K)
    (row : Fin (d0 * d1)) (hr : (row : ℕ) < n0) (val : K) (hA : (replaceRows A {row}).det ≠ 0) (b u : Arr2 K) :
    ∃ s' u', (⟨A, none⟩ : G2 (d0 * d1) K).call n0 b u [(row, val)] = some (s', setRow2 b row val, u') ∧
      ∀ k : Fin (d0 * d1), (if k = row then u' (k / d1) (k % d1) else A.mulVec (flatten2 d0 d1 u') k) =
        if (k : ℕ) / d1 = row then val else b (k / d1) (k % d1) := by
  have hm : identRow A row = replaceRows A {row} := by
    have h := identRow_replace A ∅ row
    rwa [replaceRows_empty, insert_empty_eq] at h
  refine ⟨⟨replaceRows A {row}, some ⟨replaceRows A {row}⟩⟩,
    unflatten2 d0 d1 u ((⟨replaceRows A {row}⟩ : Lu _ K).solve (flatten2 d0 d1 (setRow2 b row val))), ?_, fun k => ?_⟩
  · unfold G2.call
    have h1 : List.foldlM (G2.constrain1 n0 (Option.isNone (none : Option (Lu (d0 * d1) K)))) (A, b)
        [((row : ℕ), val)] = some (replaceRows A {row}, setRow2 b row val) := by
      simp only [List.foldlM_cons, List.foldlM_nil]
      unfold G2.constrain1
      simp only [hr, if_true, Option.isNone_none, row.2, dif_pos, hm]
      rfl
    simp only [h1, splu_some _ hA]
    rfl
  · have h := solve_rows A {row} hA (flatten2 d0 d1 (setRow2 b row val)) k
    simp only [Finset.mem_singleton] at h
    have hf := flatten_unflatten d0 d1 u ((⟨replaceRows A {row}⟩ : Lu _ K).solve (flatten2 d0 d1 (setRow2 b row val)))
    rw [hf]
    have hk : unflatten2 d0 d1 u ((⟨replaceRows A {row}⟩ : Lu _ K).solve (flatten2 d0 d1 (setRow2 b row val)))
        (k / d1) (k % d1) = (⟨replaceRows A {row}⟩ : Lu _ K).solve (flatten2 d0 d1 (setRow2 b row val)) k :=
      congrFun hf k
    rw [hk, h]
    rfl

/-- **C74 (SolverGeneric2ND, when the constraint is right).** The constraint `(0, val)` gives the constrained
solution when the other right-hand sides of the first row already equal `val` - in particular for the constraint
`(0, 0)` and a right-hand side whose first row vanishes - or when the second dimension is one. -/
theorem C74_generic2nd_zero {d0 d1 : ℕ} (n0 : ℕ) (hn : 0 < n0) (h0 : 0 < d0 * d1)
    (A : Matrix (Fin (d0 * d1)) (Fin (d0 * d1)) K) (val : K) (hA : (replaceRows A {⟨0, h0⟩}).det ≠ 0) (b u : Arr2 K)
    (hb : ∀ j, 0 < j → j < d1 → b 0 j = val) :
    ∃ s' b' u', (⟨A, none⟩ : G2 (d0 * d1) K).call n0 b u [(0, val)] = some (s', b', u') ∧
      SolvesWith A [(⟨0, h0⟩, val)] (flatten2 d0 d1 b) (flatten2 d0 d1 u') := by
  obtain ⟨s', u', e, h⟩ := C74_generic2nd_constraint n0 A ⟨0, h0⟩ hn val hA b u
  refine ⟨s', _, u', e, ?_, ?_⟩
  · intro c hc
    rw [List.mem_singleton] at hc
    subst hc
    have h := h ⟨0, h0⟩
    rw [if_pos rfl, if_pos (by simp)] at h
    exact h
  · intro k hk
    have hk0 : k ≠ ⟨0, h0⟩ := fun e => hk _ (List.mem_singleton.2 rfl) e.symm
    have h := h k
    rw [if_neg hk0] at h
    rw [h]
    unfold flatten2
    by_cases hq : (k : ℕ) / d1 = 0
    · have hd : 0 < d1 := by
        rcases Nat.eq_zero_or_pos d1 with h | h
        · rw [h] at h0; simp at h0
        · exact h
      have hlt : (k : ℕ) < d1 := by
        rcases Nat.lt_or_ge (k : ℕ) d1 with h | h
        · exact h
        · have := Nat.div_pos h hd; omega
      have hkpos : 0 < (k : ℕ) := Nat.pos_of_ne_zero fun e => hk0 (Fin.ext e)
      rw [if_pos hq, hq, Nat.mod_eq_of_lt hlt, hb _ hkpos hlt]
    · rw [if_neg hq]

/-- The full statement for SolverGeneric2ND. -/
def C74Generic2NDFull : Prop :=
  ∀ (d0 d1 : ℕ) (A : Matrix (Fin (d0 * d1)) (Fin (d0 * d1)) ℚ) (row : Fin (d0 * d1)) (val : ℚ) (b u : Arr2 ℚ),
    (row : ℕ) < d0 → (replaceRows A {row}).det ≠ 0 →
    ∃ s' b' u', (⟨A, none⟩ : G2 (d0 * d1) ℚ).call d0 b u [((row : ℕ), val)] = some (s', b', u') ∧
      SolvesWith A [(row, val)] (flatten2 d0 d1 b) (flatten2 d0 d1 u')

/-- **C74 (SolverGeneric2ND, refuted).** The identity on a 1 x 2 grid, right-hand side (5, 7) and the constraint
`(0, 0)`: the code returns (0, 0) instead of (0, 7). -/
theorem C74_generic2nd_refuted : ¬ C74Generic2NDFull := by
  intro h
  have hdet : (replaceRows (1 : Matrix (Fin (1 * 2)) (Fin (1 * 2)) ℚ) {0}).det ≠ 0 := by
    have : replaceRows (1 : Matrix (Fin (1 * 2)) (Fin (1 * 2)) ℚ) {0} = 1 := by
      ext i j
      simp [replaceRows, Matrix.one_apply]
    rw [this, Matrix.det_one]
    norm_num
  obtain ⟨s', b', u', e, hu⟩ := h 1 2 1 0 0 (fun _ j => if j = 0 then 5 else 7) (fun _ _ => 0) (by decide) hdet
  obtain ⟨s'', u'', e', hv⟩ := C74_generic2nd_constraint (d0 := 1) (d1 := 2) 1
    (1 : Matrix (Fin (1 * 2)) (Fin (1 * 2)) ℚ) 0 (by decide) 0 hdet (fun _ j => if j = 0 then 5 else 7) (fun _ _ => 0)
  rw [e] at e'
  simp only [Option.some.injEq, Prod.mk.injEq] at e'
  obtain ⟨-, -, rfl⟩ := e'
  have h1 := hu.2 1 (by intro c hc; rw [List.mem_singleton] at hc; subst hc; decide)
  have h2 := hv 1
  rw [if_neg (by decide), if_pos (by decide)] at h2
  rw [h2] at h1
  revert h1
  unfold flatten2
  norm_num

/-- **C74 (SolverGeneric2ND, wrong unknown).** For `row > 0` and `d1 > 1` it is worse: the identity equation keeps
the *old* right-hand side, so `val` is not assigned to the constrained coefficient at all. -/
theorem C74_generic2nd_wrong_row {d0 d1 : ℕ} (n0 : ℕ) (A : Matrix (Fin (d0 * d1)) (Fin (d0 * d1)) K)
    (row : Fin (d0 * d1)) (hr : (row : ℕ) < n0) (h0 : 0 < (row : ℕ)) (h1 : 1 < d1) (val : K)
    (hA : (replaceRows A {row}).det ≠ 0) (b u : Arr2 K) :
    ∃ s' b' u', (⟨A, none⟩ : G2 (d0 * d1) K).call n0 b u [((row : ℕ), val)] = some (s', b', u') ∧
      u' (row / d1) (row % d1) = b (row / d1) (row % d1) := by
  obtain ⟨s', u', e, h⟩ := C74_generic2nd_constraint n0 A row hr val hA b u
  refine ⟨s', _, u', e, ?_⟩
  have h := h row
  rwa [if_pos rfl, if_neg (Nat.ne_of_lt (Nat.div_lt_self h0 h1))] at h

/-- **C74 (SolverGeneric2ND, constraint row beyond the first axis).** A flattened row that is not an index of the
first axis raises an IndexError. -/
theorem C74_generic2nd_index {d0 d1 : ℕ} (n0 row : ℕ)
    (hr : n0 ≤ row) (val : K) (b u : Arr2 K) (s : G2 (d0 * d1) K) : s.call n0 b u [(row, val)] = none := by
  unfold G2.call
  have h1 : List.foldlM (G2.constrain1 n0 s.lu.isNone) (s.mat, b) [(row, val)] = none := by
    simp only [List.foldlM_cons]
    unfold G2.constrain1
    rw [if_neg (by simpa using hr)]
    rfl
  simp only [h1]

/-- **C74 (SolverGeneric2ND in 3D without constraints).** For every wavenumber the plane of `u` solves its own
system. -/
theorem C74_generic3d (axis m : ℕ) {d0 d1 : ℕ} (mats : ℕ → Matrix (Fin (d0 * d1)) (Fin (d0 * d1)) K) (b : Arr3 K)
    (i : ℕ) (hi : i < m) (hA : (mats i).det ≠ 0) :
    ∃ u, G3.call axis m mats b [] i = some u ∧
      (mats i).mulVec (flatten2 d0 d1 u) = flatten2 d0 d1 (plane axis b i) := by
  have hm : (if i = 0 then constrainMat (mats 0) [] else mats i) = mats i := by
    split_ifs with h
    · rw [h]; rfl
    · rfl
  refine ⟨_, by unfold G3.call; simp only [hm, List.foldl_nil, if_pos hi, splu_some _ hA, Option.map_some]; rfl, ?_⟩
  rw [flatten_unflatten, Lu.solve_spec _ hA]

/-- **C74 (SolverGeneric2ND in 3D with a constraint: other wavenumbers are damaged).** When the diagonal axis is
not the first, the constraint meant for wavenumber zero overwrites right-hand sides of every other wavenumber. -/
theorem C74_generic3d_damage (axis m : ℕ) (hax : axis ≠ 0) {d0 d1 : ℕ}
    (mats : ℕ → Matrix (Fin (d0 * d1)) (Fin (d0 * d1)) K) (b : Arr3 K) (row : Fin (d0 * d1)) (val : K)
    (i : ℕ) (hi : i < m) (h0 : 0 < i) (hA : (mats i).det ≠ 0) :
    ∃ u, G3.call axis m mats b [(row, val)] i = some u ∧ ∀ k : Fin (d0 * d1),
      (mats i).mulVec (flatten2 d0 d1 u) k =
        if (k : ℕ) / d1 = row then val else flatten2 d0 d1 (plane axis b i) k := by
  refine ⟨_, by
    unfold G3.call
    simp only [if_neg h0.ne', if_pos hi, splu_some _ hA, Option.map_some]; rfl, fun k => ?_⟩
  rw [flatten_unflatten, Lu.solve_spec _ hA]
  unfold flatten2 plane
  simp only [if_neg hax, List.foldl_cons, List.foldl_nil, setRow3]
  split_ifs <;> simp only [*, if_true, if_false]

/-! ## BlockMatrixSolver -/

/-- **C74 (BlockMatrixSolver, spaces with a non-periodic direction).** For every wavenumber and every history of
calls that constrain the same rows, every call returns the solution of its system: constrained for wavenumber zero,
unconstrained for all others. -/
theorem C74_block (key : List ℕ) (A : Matrix (Fin n) (Fin n) K) (R : Finset (Fin n))
    (hA : (replaceRows A (if key.sum = 0 then R else ∅)).det ≠ 0) (calls : List ((Fin n → K) × List (Fin n × K)))
    (hR : ∀ c ∈ calls, rowsOf c.2 = R ∧ (c.2.map Prod.fst).Nodup) :
    List.Forall₂ (fun c r => ∃ u, r = some u ∧ SolvesWith A (if key.sum = 0 then c.2 else []) c.1 u) calls
      (blockRun key A none calls) := by
  set R' := if key.sum = 0 then R else ∅ with hR'
  suffices h : ∀ lu : Option (Lu n K), lu = none ∨ lu = some ⟨replaceRows A R'⟩ →
      List.Forall₂ (fun c r => ∃ u, r = some u ∧ SolvesWith A (if key.sum = 0 then c.2 else []) c.1 u) calls
        (blockRun key A lu calls) from h _ (Or.inl rfl)
  induction calls with
  | nil => intro lu _; exact List.Forall₂.nil
  | cons c cs ih =>
    intro lu hlu
    obtain ⟨h1, h2⟩ := hR c (by simp)
    have hstep : blockStep key A lu c.1 c.2 = some (⟨replaceRows A R'⟩,
        (⟨replaceRows A R'⟩ : Lu n K).solve (constrainRhs c.1 (if key.sum = 0 then c.2 else []))) := by
      have hf : isFirst key = decide (key.sum = 0) := by
        unfold isFirst; by_cases h : key.sum = 0 <;> simp [h]
      have hm : (blockConstrain (isFirst key) c.2 A c.1 true).1 = replaceRows A R' := by
        unfold blockConstrain
        rw [hf, hR']
        by_cases h : key.sum = 0
        · simp [h, constrainMat_eq, h1]
        · simp [h, replaceRows_empty]
      have hv : ∀ w, (blockConstrain (isFirst key) c.2 A c.1 w).2 =
          constrainRhs c.1 (if key.sum = 0 then c.2 else []) := by
        intro w
        unfold blockConstrain
        rw [hf]
        by_cases h : key.sum = 0
        · simp [h]
        · simp [h, constrainRhs]
      unfold blockStep
      rcases hlu with rfl | rfl
      · simp only [hm, hv, splu_some _ hA, Option.map_some]
      · simp only [hv]
    have hsol : SolvesWith A (if key.sum = 0 then c.2 else []) c.1
        ((⟨replaceRows A R'⟩ : Lu n K).solve (constrainRhs c.1 (if key.sum = 0 then c.2 else []))) := by
      apply solve_constrained A _ R' _ _ hA
      · rw [hR']
        by_cases h : key.sum = 0
        · simp only [if_pos h]; exact h1
        · simp only [if_neg h]; rfl
      · by_cases h : key.sum = 0
        · simpa [h] using h2
        · simp [h]
    rw [blockRun, hstep]
    exact List.Forall₂.cons ⟨_, rfl, hsol⟩ (ih (fun d hd => hR d (List.mem_cons_of_mem _ hd)) _ (Or.inr rfl))

/-- **C74 (BlockMatrixSolver, purely Fourier, first call).** -/
theorem C74_fourier_first (A : Matrix (Fin n) (Fin n) K) (g : Fin n → K) (cons : List (Fin n × K))
    (hd : (cons.map Prod.fst).Nodup) (hA : (replaceRows A (rowsOf cons)).det ≠ 0) :
    ∃ u, fourierCall A .dict g cons = (.superLU, some u) ∧ SolvesWith A cons g u := by
  refine ⟨(⟨replaceRows A (rowsOf cons)⟩ : Lu n K).solve (constrainRhs g cons), ?_,
    solve_constrained A cons _ rfl hd hA g⟩
  unfold fourierCall blockConstrain
  simp only [beq_self_eq_true, if_true, constrainMat_eq, splu_some _ hA]

/-- **C74 (BlockMatrixSolver, purely Fourier, every later call).** The matrix is no longer constrained: the call
raises if the unconstrained matrix is singular, and otherwise solves `A u = b` with the right-hand side entries of
the constrained rows replaced by the values. -/
theorem C74_fourier_later (A : Matrix (Fin n) (Fin n) K) (g : Fin n → K) (cons : List (Fin n × K)) :
    (A.det = 0 → (fourierCall A .superLU g cons).2 = none) ∧
      (A.det ≠ 0 → ∃ u, fourierCall A .superLU g cons = (.superLU, some u) ∧ A.mulVec u = constrainRhs g cons) := by
  have h : ((FLu.superLU == FLu.dict) : Bool) = false := by decide
  constructor
  · intro hA
    unfold fourierCall blockConstrain
    simp only [h, if_true, Bool.false_eq_true, if_false, splu_none _ hA]
  · intro hA
    refine ⟨(⟨A⟩ : Lu n K).solve (constrainRhs g cons), ?_, Lu.solve_spec _ hA _⟩
    unfold fourierCall blockConstrain
    simp only [h, if_true, Bool.false_eq_true, if_false, splu_some _ hA]

/-- **C74 (BlockMatrixSolver, purely Fourier: second call crashes).** The usual reason for a constraint is that the
matrix is singular. Then the first call works and the identical second call on the same solver raises. -/
theorem C74_fourier_crash (A : Matrix (Fin n) (Fin n) K) (hs : A.det = 0) (g : Fin n → K) (cons : List (Fin n × K))
    (hA : (replaceRows A (rowsOf cons)).det ≠ 0) :
    (fourierCall A .dict g cons).2 ≠ none ∧
      (fourierCall A (fourierCall A .dict g cons).1 g cons).2 = none := by
  have h1 : fourierCall A .dict g cons =
      (.superLU, some ((⟨replaceRows A (rowsOf cons)⟩ : Lu n K).solve (constrainRhs g cons))) := by
    unfold fourierCall blockConstrain
    simp only [beq_self_eq_true, if_true, constrainMat_eq, splu_some _ hA]
  rw [h1]
  exact ⟨by simp, (C74_fourier_later A g cons).1 hs⟩

/-! ## The hypotheses are met -/

/-- A singular Neumann-like matrix that becomes regular when its first row is replaced. -/
def exA : Matrix (Fin 3) (Fin 3) ℚ := !![0, 0, 0; 0, 2, 1; 0, 1, 3]

theorem exA_det : exA.det = 0 := by
  unfold exA; rw [Matrix.det_fin_three]; simp

theorem exA_constrained : (replaceRows exA (rowsOf [((0 : Fin 3), (4 : ℚ))])).det ≠ 0 := by
  have : replaceRows exA (rowsOf [((0 : Fin 3), (4 : ℚ))]) = !![1, 0, 0; 0, 2, 1; 0, 1, 3] := by
    ext i j
    fin_cases i <;> fin_cases j <;> simp [replaceRows, rowsOf, exA]
  rw [this, Matrix.det_fin_three]
  simp
  norm_num

example : List.Forall₂ (fun c r => ∃ u, r = some u ∧ SolvesWith exA c.2 c.1 u)
    [((![7, 5, 5] : Fin 3 → ℚ), [((0 : Fin 3), (4 : ℚ))]), (![1, 2, 3], [(0, -1)])]
    ((S2.new exA).run [(![7, 5, 5], [(0, 4)]), (![1, 2, 3], [(0, -1)])]).2 :=
  C74_solver2d exA {0} (by have := exA_constrained; simpa [rowsOf] using this) _ (by
    intro c hc
    rcases List.mem_cons.1 hc with rfl | hc
    · exact ⟨by simp [rowsOf], by simp⟩
    · rcases List.mem_cons.1 hc with rfl | hc
      · exact ⟨by simp [rowsOf], by simp⟩
      · simp at hc)

example : (fourierCall exA .dict ![7, 5, 5] [(0, 4)]).2 ≠ none ∧
    (fourierCall exA (fourierCall exA .dict ![7, 5, 5] [(0, 4)]).1 ![7, 5, 5] [(0, 4)]).2 = none :=
  C74_fourier_crash exA exA_det _ _ exA_constrained

example : List.Forall₂ (fun c r => ∃ u, r = some u ∧ SolvesWith exA c.2 c.1 u)
    [((![7, 5, 5] : Fin 3 → ℚ), [((0 : Fin 3), (4 : ℚ))]), (![1, 2, 3], [(0, -1)])]
    (blockRun [0, 0] exA none [(![7, 5, 5], [(0, 4)]), (![1, 2, 3], [(0, -1)])]) := by
  have h := C74_block [0, 0] exA {0} (by have := exA_constrained; simpa [rowsOf] using this)
    [((![7, 5, 5] : Fin 3 → ℚ), [((0 : Fin 3), (4 : ℚ))]), (![1, 2, 3], [(0, -1)])] (by
    intro c hc
    rcases List.mem_cons.1 hc with rfl | hc
    · exact ⟨by simp [rowsOf], by simp⟩
    · rcases List.mem_cons.1 hc with rfl | hc
      · exact ⟨by simp [rowsOf], by simp⟩
      · simp at hc)
  simpa using h

example : ∃ s' u', (⟨1, none⟩ : G2 (2 * 3) ℚ).call 2 (fun i j => (i : ℚ) + j) (fun _ _ => 0) [] =
      some (s', (fun (i j : ℕ) => (i : ℚ) + j), u') ∧ G2.Clean 1 s' ∧
      (1 : Matrix (Fin (2 * 3)) (Fin (2 * 3)) ℚ).mulVec (flatten2 2 3 u') = flatten2 2 3 (fun (i j : ℕ) => (i : ℚ) + j) ∧
      ∀ i j, ¬ (i < 2 ∧ j < 3) → u' i j = 0 :=
  C74_generic2nd 2 1 (by rw [Matrix.det_one]; norm_num) _ ⟨rfl, Or.inl rfl⟩ _ _

end Shenfun.Direct
