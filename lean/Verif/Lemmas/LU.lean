import Verif.Lemmas.Loop
import Mathlib.LinearAlgebra.Matrix.Block

namespace Shenfun

open Finset

variable {K : Type*} [Field K]

/-- `L` unit lower triangular, `U` upper triangular. -/
structure IsLU (n : ℕ) (L U : ℕ → ℕ → K) : Prop where
  lower : ∀ i j, i < j → L i j = 0
  unit : ∀ i, L i i = 1
  upper : ∀ i j, j < i → U i j = 0

/-- Entry relation `A = L U`, where an entry of row `i` may use that earlier pivots are non-zero. -/
def LURel (n : ℕ) (A L U : ℕ → ℕ → K) : Prop :=
  ∀ i < n, ∀ j < n, (∀ m < i, U m m ≠ 0) → A i j = ∑ m ∈ range n, L i m * U m j

theorem solves_of_LU {n : ℕ} {A L U : ℕ → ℕ → K} (hA : LURel n A L U)
    (hp : ∀ i < n, U i i ≠ 0) {x y b : ℕ → K}
    (hL : ∀ i < n, Spec.mulVec n L y i = b i) (hU : ∀ i < n, Spec.mulVec n U x i = y i) :
    Spec.Solves n A x b := by
  intro i hi
  rw [← hL i hi]
  unfold Spec.mulVec
  calc ∑ j ∈ range n, A i j * x j
      = ∑ j ∈ range n, ∑ m ∈ range n, L i m * U m j * x j := by
        refine Finset.sum_congr rfl fun j hj => ?_
        rw [hA i hi j (Finset.mem_range.1 hj) (fun m hm => hp m (by omega)), Finset.sum_mul]
    _ = ∑ m ∈ range n, ∑ j ∈ range n, L i m * U m j * x j := Finset.sum_comm
    _ = ∑ m ∈ range n, L i m * y m := by
        refine Finset.sum_congr rfl fun m hm => ?_
        rw [← hU m (Finset.mem_range.1 hm), Spec.mulVec, Finset.mul_sum]
        exact Finset.sum_congr rfl fun j _ => by ring

theorem lower_zero {n : ℕ} {L : ℕ → ℕ → K} (h1 : ∀ i j, i < j → L i j = 0) (h2 : ∀ i, L i i = 1)
    {w : ℕ → K} (hw : ∀ i < n, Spec.mulVec n L w i = 0) : ∀ i < n, w i = 0 := by
  intro i
  induction i using Nat.strong_induction_on with
  | _ i ih =>
    intro hi
    have := hw i hi
    unfold Spec.mulVec at this
    rw [Finset.sum_eq_single i] at this
    · rwa [h2, one_mul] at this
    · intro j hj hne
      rcases lt_or_gt_of_ne hne with h | h
      · rw [ih j h (by omega), mul_zero]
      · rw [h1 i j h, zero_mul]
    · intro h; exact absurd (Finset.mem_range.2 hi) h

theorem upper_zero {n : ℕ} {U : ℕ → ℕ → K} (h1 : ∀ i j, j < i → U i j = 0) (h2 : ∀ i < n, U i i ≠ 0)
    {w : ℕ → K} (hw : ∀ i < n, Spec.mulVec n U w i = 0) : ∀ i < n, w i = 0 := by
  have key : ∀ d i, i < n → n - i = d → w i = 0 := by
    intro d
    induction d using Nat.strong_induction_on with
    | _ d ih =>
      intro i hi hd
      have := hw i hi
      unfold Spec.mulVec at this
      rw [Finset.sum_eq_single i] at this
      · exact (mul_eq_zero.1 this).resolve_left (h2 i hi)
      · intro j hj hne
        have hj' := Finset.mem_range.1 hj
        rcases lt_or_gt_of_ne hne with h | h
        · rw [h1 i j h, zero_mul]
        · rw [ih (n-j) (by omega) j hj' rfl, mul_zero]
      · intro h; exact absurd (Finset.mem_range.2 hi) h
  exact fun i hi => key _ i hi rfl

theorem unique_of_LU {n : ℕ} {A L U : ℕ → ℕ → K} (hlu : IsLU n L U) (hA : LURel n A L U)
    (hp : ∀ i < n, U i i ≠ 0) {x x' b : ℕ → K}
    (h : Spec.Solves n A x b) (h' : Spec.Solves n A x' b) : ∀ i < n, x i = x' i := by
  have hz : ∀ i < n, Spec.mulVec n L (Spec.mulVec n U fun j => x j - x' j) i = 0 := by
    intro i hi
    have e : Spec.mulVec n A (fun j => x j - x' j) i = 0 := by
      have := h i hi
      have := h' i hi
      unfold Spec.mulVec at *
      simp only [mul_sub, Finset.sum_sub_distrib]
      rw [this, ‹∑ j ∈ range n, A i j * x j = b i›, sub_self]
    rw [← e]
    unfold Spec.mulVec
    symm
    calc ∑ j ∈ range n, A i j * (x j - x' j)
        = ∑ j ∈ range n, ∑ m ∈ range n, L i m * U m j * (x j - x' j) := by
          refine Finset.sum_congr rfl fun j hj => ?_
          rw [hA i hi j (Finset.mem_range.1 hj) (fun m hm => hp m (by omega)), Finset.sum_mul]
      _ = ∑ m ∈ range n, ∑ j ∈ range n, L i m * U m j * (x j - x' j) := Finset.sum_comm
      _ = _ := by
          refine Finset.sum_congr rfl fun m hm => ?_
          rw [Finset.mul_sum]
          exact Finset.sum_congr rfl fun j _ => by ring
  have h1 := lower_zero hlu.lower hlu.unit hz
  have h2 := upper_zero hlu.upper hp h1
  exact fun i hi => sub_eq_zero.1 (h2 i hi)

/-- Leading minors are products of pivots. -/
theorem leadMinor_eq {n : ℕ} {A L U : ℕ → ℕ → K} (hlu : IsLU n L U) (hA : LURel n A L U)
    (k : ℕ) (hk : k ≤ n) (hp : ∀ i, i + 1 < k → U i i ≠ 0) :
    Spec.leadMinor A k = ∏ i ∈ range k, U i i := by
  have hm : (Matrix.of fun i j : Fin k => A i j) =
      (Matrix.of fun i j : Fin k => L i j) * (Matrix.of fun i j : Fin k => U i j) := by
    ext i j
    rw [Matrix.mul_apply]
    simp only [Matrix.of_apply]
    rw [hA i (by omega) j (by omega) (fun m hm => hp m (by have := i.2; omega))]
    rw [Fin.sum_univ_eq_sum_range (fun m => L i m * U m j) k]
    symm
    apply Finset.sum_subset
    · intro m hm; simp only [Finset.mem_range] at *; omega
    · intro m _ hm
      simp only [Finset.mem_range] at hm
      rw [hlu.lower i m (by have := i.2; omega), zero_mul]
  unfold Spec.leadMinor
  rw [hm, Matrix.det_mul, Matrix.det_of_isLowerTriangular, Matrix.det_of_isUpperTriangular]
  · simp only [Matrix.of_apply, hlu.unit, Finset.prod_const_one, one_mul]
    exact Fin.prod_univ_eq_prod_range (fun i => U i i) k
  · intro i j hij
    exact hlu.upper i j hij
  · intro i j hij
    exact hlu.lower i j hij

theorem pivots_of_minors {n : ℕ} {A L U : ℕ → ℕ → K} (hlu : IsLU n L U) (hA : LURel n A L U)
    (hm : Spec.Eliminable n A) : ∀ i < n, U i i ≠ 0 := by
  intro i
  induction i using Nat.strong_induction_on with
  | _ i ih =>
    intro hi
    have := hm (i+1) (by omega)
    rw [leadMinor_eq hlu hA (i+1) (by omega) (fun j hj => ih j (by omega) (by omega)),
      Finset.prod_range_succ] at this
    exact right_ne_zero_of_mul this

theorem minors_of_pivots {n : ℕ} {A L U : ℕ → ℕ → K} (hlu : IsLU n L U) (hA : LURel n A L U)
    (hp : ∀ i < n, U i i ≠ 0) : Spec.Eliminable n A := by
  intro k hk
  rw [leadMinor_eq hlu hA k hk (fun i hi => hp i (by omega))]
  exact Finset.prod_ne_zero_iff.2 fun i hi => hp i (by have := Finset.mem_range.1 hi; omega)

theorem sum_shift (n c i : ℕ) (g : ℕ → K) :
    ∑ m ∈ range n, (if m + c = i then g m else 0) = if c ≤ i ∧ i - c < n then g (i-c) else 0 := by
  by_cases h : c ≤ i ∧ i - c < n
  · rw [if_pos h, Finset.sum_eq_single (i-c)]
    · rw [if_pos (by omega)]
    · intro m _ hm; rw [if_neg (by omega)]
    · intro hm; simp only [Finset.mem_range] at hm; omega
  · rw [if_neg h]
    refine Finset.sum_eq_zero fun m hm => ?_
    simp only [Finset.mem_range] at hm
    rw [if_neg (by omega)]

theorem sum_shift' (n c i : ℕ) (g : ℕ → K) :
    ∑ m ∈ range n, (if m = i + c then g m else 0) = if i + c < n then g (i+c) else 0 := by
  by_cases h : i + c < n
  · rw [if_pos h, Finset.sum_eq_single (i+c)]
    · rw [if_pos rfl]
    · intro m _ hm; rw [if_neg hm]
    · intro hm; simp only [Finset.mem_range] at hm; omega
  · rw [if_neg h]
    refine Finset.sum_eq_zero fun m hm => ?_
    simp only [Finset.mem_range] at hm
    rw [if_neg (by omega)]

/-- Unit lower banded matrix with sub-diagonals `c1 < c2` (in distance) taken from `l1`, `l2`. -/
def bandL (c1 c2 : ℕ) (l1 l2 : ℕ → K) (i j : ℕ) : K :=
  (if j = i + 0 then 1 else 0) + (if j + c1 = i then l1 j else 0) + (if j + c2 = i then l2 j else 0)

/-- Upper banded matrix with main diagonal `d` and the upper diagonals `c1..c4`; `uk j` is the entry in
column `j`. -/
def bandU (c1 c2 c3 c4 : ℕ) (d u1 u2 u3 u4 : ℕ → K) (i j : ℕ) : K :=
  (if j = i + 0 then d j else 0) + (if j = i + c1 then u1 j else 0) + (if j = i + c2 then u2 j else 0)
   + (if j = i + c3 then u3 j else 0) + (if j = i + c4 then u4 j else 0)

theorem sum_bandL (n c1 c2 : ℕ) (l1 l2 : ℕ → K) (i : ℕ) (hi : i < n) (g : ℕ → K) :
    ∑ j ∈ range n, bandL c1 c2 l1 l2 i j * g j =
      g i + (if c1 ≤ i then l1 (i-c1) * g (i-c1) else 0) + (if c2 ≤ i then l2 (i-c2) * g (i-c2) else 0) := by
  unfold bandL
  simp only [add_mul, ite_mul, one_mul, zero_mul, Finset.sum_add_distrib]
  rw [sum_shift' n 0 i g, sum_shift n c1 i (fun j => l1 j * g j), sum_shift n c2 i (fun j => l2 j * g j)]
  congr 1
  · congr 1
    · ifs; rfl
    · by_cases h : c1 ≤ i
      · ifs
      · ifs
  · by_cases h : c2 ≤ i
    · ifs
    · ifs

theorem sum_bandU (n c1 c2 c3 c4 : ℕ) (d u1 u2 u3 u4 : ℕ → K) (i : ℕ) (hi : i < n) (g : ℕ → K) :
    ∑ j ∈ range n, bandU c1 c2 c3 c4 d u1 u2 u3 u4 i j * g j =
      d i * g i + (if i + c1 < n then u1 (i+c1) * g (i+c1) else 0)
       + (if i + c2 < n then u2 (i+c2) * g (i+c2) else 0)
       + (if i + c3 < n then u3 (i+c3) * g (i+c3) else 0)
       + (if i + c4 < n then u4 (i+c4) * g (i+c4) else 0) := by
  unfold bandU
  simp only [add_mul, ite_mul, zero_mul, Finset.sum_add_distrib]
  rw [sum_shift' n 0 i (fun j => d j * g j), sum_shift' n c1 i (fun j => u1 j * g j),
    sum_shift' n c2 i (fun j => u2 j * g j), sum_shift' n c3 i (fun j => u3 j * g j),
    sum_shift' n c4 i (fun j => u4 j * g j)]
  ifs; rfl

theorem isLU_band (n c1 c2 e1 e2 e3 e4 : ℕ) (l1 l2 d u1 u2 u3 u4 : ℕ → K)
    (h1 : 0 < c1) (h2 : 0 < c2) :
    IsLU n (bandL c1 c2 l1 l2) (bandU e1 e2 e3 e4 d u1 u2 u3 u4) where
  lower i j h := by unfold bandL; ifs; simp
  unit i := by unfold bandL; ifs; simp
  upper i j h := by unfold bandU; ifs; simp

theorem bandU_diag (e1 e2 e3 e4 : ℕ) (d u1 u2 u3 u4 : ℕ → K)
    (h1 : 0 < e1) (h2 : 0 < e2) (h3 : 0 < e3) (h4 : 0 < e4) (i : ℕ) :
    bandU e1 e2 e3 e4 d u1 u2 u3 u4 i i = d i := by
  unfold bandU; ifs; simp

end Shenfun
