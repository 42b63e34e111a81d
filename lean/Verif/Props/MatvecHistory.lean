import Verif.Props.MatvecBiharmonic

/-!
# C69: in-place sums of matrices with callable diagonals, and concrete instances
-/

namespace Shenfun

open Polynomial Spec Finset ChebLA

namespace SpecMat

namespace KMat

/-- Entry `(i, j)` of the matrix a user sees: the diagonal with offset `j - i`, times `scale`. -/
def entry (A : KMat) (i j : ℕ) : ℝ :=
  A.scale * match A.store ((j:ℤ) - i) with
    | none => 0
    | some e => A.val e (min i j)

/-- Either all diagonals are callable (and there is a `_keyscale`), or all are arrays (and there is none): the state after
`assemble`. -/
def Uniform (A : KMat) : Prop :=
  (A.ks ≠ none ∧ ∀ key e, A.store key = some e → ∃ f, e = .fn f) ∨ (A.ks = none ∧ ∀ key e, A.store key = some e → ∃ a, e = .arr a)

theorem uniform_ofCallable (d : DMat) : Uniform (ofCallable d) := by
  refine Or.inl ⟨by simp [ofCallable], fun key e h => ?_⟩
  unfold ofCallable at h
  dsimp only at h
  obtain ⟨x, -, rfl⟩ := Option.map_eq_some_iff.1 h
  exact ⟨_, rfl⟩

theorem uniform_ofArrays (d : DMat) : Uniform (ofArrays d) := by
  refine Or.inr ⟨rfl, fun key e h => ?_⟩
  unfold ofArrays at h
  dsimp only at h
  obtain ⟨x, -, rfl⟩ := Option.map_eq_some_iff.1 h
  exact ⟨_, rfl⟩

/-- A scale is 1 or far enough from 1 to be incorporated. -/
def ScaleFar (s : ℝ) : Prop := s = 1 ∨ 1e-8 ≤ |s - 1|

theorem entry_incorporateScale (A : KMat) (hA : Uniform A) (hs : ScaleFar A.scale) (i j : ℕ) :
    A.incorporateScale.entry i j = A.entry i j ∧ A.incorporateScale.scale = 1 := by
  unfold incorporateScale
  by_cases h : |A.scale - 1| < 1e-8
  · rw [if_pos h]
    refine ⟨rfl, ?_⟩
    rcases hs with h1 | h1
    · exact h1
    · linarith
  · rw [if_neg h]
    rcases hA with ⟨hk, hf⟩ | ⟨hk, hf⟩
    · cases hks : A.ks with
      | none => exact absurd hks hk
      | some k =>
        refine ⟨?_, rfl⟩
        unfold entry
        cases hst : A.store ((j:ℤ) - i) with
        | none => simp [hst]
        | some e =>
          obtain ⟨f, rfl⟩ := hf _ _ hst
          simp [hst, val, hks]
          ring
    · rw [hk]
      refine ⟨?_, rfl⟩
      unfold entry
      cases hst : A.store ((j:ℤ) - i) with
      | none => simp [hst]
      | some e =>
        simp [hst, val]
        ring

/-- **C69** `A += B` of assembled matrices is the sum of the matrices, callable diagonals or not. -/
theorem C69_iadd (A B : KMat) (hA : Uniform A) (hB : Uniform B) (hAs : ScaleFar A.scale) (hBs : ScaleFar B.scale)
    (hA0 : 1e-16 ≤ |A.scale|) (hB0 : 1e-16 ≤ |B.scale|) (i j : ℕ) : (A.iadd B).entry i j = A.entry i j + B.entry i j := by
  obtain ⟨eA, sA⟩ := entry_incorporateScale A hA hAs i j
  obtain ⟨eB, sB⟩ := entry_incorporateScale B hB hBs i j
  rw [← eA, ← eB]
  unfold iadd
  rw [if_neg (not_lt.2 hB0), if_neg (not_lt.2 hA0)]
  unfold entry
  dsimp only
  rw [sA, sB]
  cases h1 : B.incorporateScale.store ((j:ℤ) - i) with
  | none => cases h2 : A.incorporateScale.store ((j:ℤ) - i) with
    | none => simp
    | some a => cases a <;> simp [val]
  | some b => cases h2 : A.incorporateScale.store ((j:ℤ) - i) with
    | none => simp [val]
    | some a => simp [val]

/-- **C69** refuted for a second in-place sum: after `A += B` the diagonals present in both are arrays, and the next
`incorporate_scale` (in `A *= y; A += Z`) rescales only the callable ones.  Here `A` is the Dirichlet stiffness matrix, `B`
the mass matrix; the diagonal loses the factor `y`. -/
theorem C69_iadd_twice_refuted (N : ℕ) (hN : 7 ≤ N) (h : ℕ → ℝ) (y : ℝ) (hy : 1e-8 ≤ |y - 1|) (hy0 : 1e-16 ≤ |y|) (Z : KMat)
    (hZ : Uniform Z) (hZs : ScaleFar Z.scale) (hZ0 : 1e-16 ≤ |Z.scale|)
    (hne : -4 * Real.pi + h 0 + h 2 ≠ 0) :
    let A := (ofCallable (ChebMat.ASDSD N)).iadd (ofArrays (ChebMat.BSDSD N N h))
    ((A.imul y).iadd Z).entry 0 0 ≠ (A.imul y).entry 0 0 + Z.entry 0 0 := by
  intro A hcon
  have hfind : (ChebMat.ASDSD N).find? (fun e => e.1 == (0:ℤ)) ≠ none := by
    intro hn
    have := sdsd_at0 N (by omega) 0
    unfold DMat.at at this
    rw [hn] at this
    have hpi := Real.pi_pos
    norm_num at this
  obtain ⟨x, hx⟩ := Option.ne_none_iff_exists'.1 hfind
  have hxv : x.2.get 0 = -4 * Real.pi := by
    have := sdsd_at0 N (by omega) 0
    unfold DMat.at at this
    rw [hx] at this
    dsimp only at this
    rw [this]
    norm_num; ring
  have hA0 : A.store 0 = some (.arr fun t => (1:ℝ) * x.2.get t + (h t + h (t+2))) := by
    show ((ofCallable (ChebMat.ASDSD N)).iadd (ofArrays (ChebMat.BSDSD N N h))).store 0 = _
    have i1 : (ofCallable (ChebMat.ASDSD N)).incorporateScale = ofCallable (ChebMat.ASDSD N) := by
      unfold incorporateScale; rw [if_pos (by simp only [ofCallable, sub_self, abs_zero]; norm_num)]
    have i2 : (ofArrays (ChebMat.BSDSD N N h)).incorporateScale = ofArrays (ChebMat.BSDSD N N h) := by
      unfold incorporateScale; rw [if_pos (by simp only [ofArrays, sub_self, abs_zero]; norm_num)]
    unfold iadd
    rw [if_neg (by simp [ofArrays]; norm_num), if_neg (by simp [ofCallable]; norm_num), i1, i2]
    dsimp only
    have b0 : (ofArrays (ChebMat.BSDSD N N h)).store 0 = some (.arr fun t => h t + h (t+2)) := rfl
    have a0 : (ofCallable (ChebMat.ASDSD N)).store 0 = some (.fn x.2.get) := by
      unfold ofCallable; dsimp only; rw [hx]; rfl
    rw [b0, a0]
    rfl
  have hAk : A.ks = some 1 := by
    show ((ofCallable (ChebMat.ASDSD N)).iadd (ofArrays (ChebMat.BSDSD N N h))).ks = some 1
    have i1 : (ofCallable (ChebMat.ASDSD N)).incorporateScale = ofCallable (ChebMat.ASDSD N) := by
      unfold incorporateScale; rw [if_pos (by simp only [ofCallable, sub_self, abs_zero]; norm_num)]
    unfold iadd
    rw [if_neg (by simp [ofArrays]; norm_num), if_neg (by simp [ofCallable]; norm_num), i1]
    rfl
  have hAs : A.scale = 1 := by
    show ((ofCallable (ChebMat.ASDSD N)).iadd (ofArrays (ChebMat.BSDSD N N h))).scale = 1
    have i1 : (ofCallable (ChebMat.ASDSD N)).incorporateScale = ofCallable (ChebMat.ASDSD N) := by
      unfold incorporateScale; rw [if_pos (by simp only [ofCallable, sub_self, abs_zero]; norm_num)]
    unfold iadd
    rw [if_neg (by simp [ofArrays]; norm_num), if_neg (by simp [ofCallable]; norm_num), i1]
    rfl
  have hAe : (A.imul y).entry 0 0 = y * (-4 * Real.pi + (h 0 + h 2)) := by
    unfold entry imul
    dsimp only
    rw [show ((0:ℕ):ℤ) - ((0:ℕ):ℤ) = 0 by norm_num, hA0, hAs]
    simp [val, hxv]
  have hinc : (A.imul y).incorporateScale = { A with ks := some y, scale := 1 } := by
    unfold incorporateScale imul
    dsimp only
    rw [if_neg (by rw [hAs, one_mul]; exact not_lt.2 hy), hAk, hAs]
    simp
  obtain ⟨eZ, sZ⟩ := entry_incorporateScale Z hZ hZs 0 0
  have hres : ((A.imul y).iadd Z).entry 0 0 = (-4 * Real.pi + (h 0 + h 2)) + Z.entry 0 0 := by
    rw [← eZ]
    unfold iadd
    rw [if_neg (not_lt.2 hZ0), if_neg (by unfold imul; dsimp only; rw [hAs, one_mul]; exact not_lt.2 hy0), hinc]
    unfold entry
    dsimp only
    rw [sZ, show ((0:ℕ):ℤ) - ((0:ℕ):ℤ) = 0 by norm_num]
    cases h1 : Z.incorporateScale.store 0 with
    | none => simp [hA0, val, hxv]
    | some e => simp [hA0, val, hxv]
  rw [hres, hAe] at hcon
  have : (y - 1) * (-4 * Real.pi + h 0 + h 2) = 0 := by linarith
  rcases mul_eq_zero.1 this with h1 | h1
  · rw [h1] at hy; norm_num at hy
  · exact hne h1

/-- **C69** refuted for `matvec` after an in-place sum: `A += B` of the Dirichlet stiffness and mass matrices keeps the class
and with it the optimised product, which never looks at the new lower diagonal. -/
theorem C69_iadd_matvec_refuted (N : ℕ) (hN : 6 ≤ N) (h : ℕ → ℝ) (I : ℝ[X] →ₗ[ℝ] ℝ) (hh : ChebNorms N N h)
    (hI : OrthogonalForm chebT I N N h) :
    ∃ v : ℕ → ℝ, ∃ i < N - 2, ¬ HelmholtzEquation I (chebSD N) (N-2) 1 1 v
      (matvecASDSD (N-2) ((ofCallable (ChebMat.ASDSD N)).iadd (ofArrays (ChebMat.BSDSD N N h))) v) i := by
  refine ⟨fun j => if j = 0 then 1 else 0, 2, by omega, fun hcon => ?_⟩
  rw [helmholtzEquation_iff, helmholtz_row N hN h I hh hI _ _ _ _ (by omega)] at hcon
  have hp : pSum (N-2) ((2+2)%2) (2+2) (fun j : ℕ => if j = 0 then (1:ℝ) else 0) = 0 := by
    rw [pSum_congr (v := fun _ => 0) fun j hj => if_neg (by omega)]
    unfold pSum
    simp
  have hz : ∀ dd : ℕ → ℝ, kernelADD (N-2) dd (fun j => if j = 0 then 1 else 0) zeros 2 = 0 := by
    intro dd
    unfold kernelADD
    rw [sumLoop_apply, (by omega : N - 2 - 2 + 2 = N - 2)]
    simp only [Function.update_apply, zeros]
    by_cases h1 : 2 < N - 2 - 2
    · rw [if_pos h1, hp]; norm_num
    · rw [if_neg h1]
      by_cases h2 : 2 = N - 2 - 2
      · rw [if_pos h2, if_neg (by omega), mul_zero]
      · rw [if_neg h2]
        by_cases h3 : 2 = N - 2 - 1
        · rw [if_pos h3, if_neg (by omega), mul_zero]
        · rw [if_neg h3]
  have hs : ∀ (c : ℕ → ℝ) (sc : ℝ) (i : ℕ), c i = 0 → scaleArray c sc i = 0 := by
    intro c sc i hc
    unfold scaleArray
    split_ifs
    · show c i * sc = 0
      rw [hc, zero_mul]
    · exact hc
  rw [show matvecASDSD (N-2) ((ofCallable (ChebMat.ASDSD N)).iadd (ofArrays (ChebMat.BSDSD N N h)))
    (fun j => if j = 0 then 1 else 0) 2 = 0 from hs _ _ _ (hz _), hp] at hcon
  norm_num at hcon

/-- Non-vacuity of the refutation: the exact norms, `y = 2` and the mass matrix again. -/
example : 1e-8 ≤ |(2:ℝ) - 1| ∧ 1e-16 ≤ |(2:ℝ)| ∧ Uniform (ofArrays (ChebMat.BSDSD 8 8 (chebNormSq false 8))) ∧
    ScaleFar (ofArrays (ChebMat.BSDSD 8 8 (chebNormSq false 8))).scale ∧
    -4 * Real.pi + chebNormSq false 8 0 + chebNormSq false 8 2 ≠ 0 := by
  have hn := C28_chebNormSq_norms false 8 (by norm_num)
  refine ⟨by norm_num, by norm_num, uniform_ofArrays _, Or.inl rfl, ?_⟩
  rw [hn.zero, hn.mid 2 (by norm_num) (by norm_num)]
  have := Real.pi_pos
  intro h
  linarith

end KMat

/-! ## Concrete instances -/

/-- Exact integration on 14 points, a coefficient 3 in the form and a domain factor 1/2: the compiled product with the
biharmonic mass matrix is 3/2 times the integral of the product of the functions. -/
example (v : ℕ → ℝ) : IsFormProduct (fun p q => chebI (p * q)) (chebSB 14) (chebSB 14) 10 10 (3 * (1/2)) v
    (matvecBSBSB 10 ⟨ChebMat.BSBSB 14 14 (chebNormSq false 14), 1/2, 3⟩ v) :=
  C69_BSBSB 14 (by norm_num) _ chebI (C28_chebNormSq_norms false 14 (by norm_num)) (C28_cheb_exact_form 14 14) _ _
    (Or.inr (by norm_num [abs_of_pos])) v

/-- The first row of the optimised product with the Dirichlet stiffness matrix applied to the third basis function. -/
example : matvecASDSD 8 ⟨ChebMat.ASDSD 10, 1, 1⟩ (fun j => if j = 2 then 1 else 0) 0 = -4 * Real.pi := by
  rw [(C69_ASDSD 10 (by norm_num) 1 1 one_ne_zero (Or.inl (by norm_num)) _).row 0 (by norm_num), chebForm_sum,
    Finset.sum_eq_single 2]
  · rw [sdsd_entry (by norm_num) (by norm_num)]; norm_num
  · intro j _ hj; simp [hj]
  · intro hn; exact absurd (Finset.mem_range.2 (by norm_num)) hn

/-- Exact integration on ten points meets the hypotheses of the theorems on the solvers' products. -/
example (v : ℕ → ℝ) : ∀ i < 12 - 2, HelmholtzEquation chebI (chebSD 12) (12-2) (2 * 1) (-3) v
    (helmholtzMatvec (12-2) ⟨ChebMat.ASDSD 12, 1, 1⟩ ⟨ChebMat.BSDSD 12 12 (chebNormSq false 12), 1, 1⟩ 2 (-3) v) i :=
  (C69_helmholtz 12 (by norm_num) _ chebI (C28_chebNormSq_norms false 12 (by norm_num)) (C28_cheb_exact_form 12 12) 1 1 1 2 (-3) v).1

end SpecMat

end Shenfun
