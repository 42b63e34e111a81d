import Verif.Model.Matvecs
import Verif.Lemmas.SuffixSweep
import Verif.Lemmas.Loop
import Verif.Spec.Diags

/-!
# Lemmas on the optimised matrix-vector products
-/

namespace Shenfun

namespace SpecMat

open Finset ChebLA

theorem fill_apply (lo hi : ℕ) (f b : ℕ → ℝ) (i : ℕ) : fill lo hi f b i = if lo ≤ i ∧ i < hi then f i else b i := by
  unfold fill
  have key : ∀ q, ∀ i, forN (fun q b => Function.update b (lo + q) (f (lo + q))) b q i = if lo ≤ i ∧ i < lo + q then f i else b i := by
    intro q
    induction q with
    | zero => intro i; rw [if_neg (by omega)]; rfl
    | succ q ih =>
      intro i
      rw [forN_succ, Function.update_apply, ih]
      by_cases h : i = lo + q
      · subst h; rw [if_pos rfl, if_pos (by omega)]
      · rw [if_neg h]
        exact if_congr (by omega) rfl rfl
  rw [key]
  exact if_congr (by omega) rfl rfl

/-- State of the sweep with running sums after `q` of `m` rows. -/
theorem sumLoop_inv (m off : ℕ) (t1 t2 : ℕ → ℝ) (out : ℕ → ℝ → ℝ → ℝ) (b : ℕ → ℝ) (q : ℕ) (hq : q ≤ m) :
    (sumLoop m off t1 t2 out b q).e1 = pSum (m+off) (off%2) (m-q+off) t1 ∧
    (sumLoop m off t1 t2 out b q).e2 = pSum (m+off) (off%2) (m-q+off) t2 ∧
    (sumLoop m off t1 t2 out b q).o1 = pSum (m+off) ((off+1)%2) (m-q+off) t1 ∧
    (sumLoop m off t1 t2 out b q).o2 = pSum (m+off) ((off+1)%2) (m-q+off) t2 ∧
    ∀ i, (sumLoop m off t1 t2 out b q).b i = if m - q ≤ i ∧ i < m then
      out i (pSum (m+off) ((i+off)%2) (i+off) t1) (pSum (m+off) ((i+off)%2) (i+off) t2) else b i := by
  induction q with
  | zero =>
    refine ⟨(pSum_zero _ (by omega)).symm, (pSum_zero _ (by omega)).symm, (pSum_zero _ (by omega)).symm,
      (pSum_zero _ (by omega)).symm, fun i => ?_⟩
    rw [if_neg (by omega)]; rfl
  | succ q ih =>
    obtain ⟨h1, h2, h3, h4, h5⟩ := ih (by omega)
    have hs : sumLoop m off t1 t2 out b (q+1) = sumStep m off t1 t2 out q (sumLoop m off t1 t2 out b q) := rfl
    rw [hs]
    set s := sumLoop m off t1 t2 out b q
    obtain ⟨k, hk⟩ : ∃ k, k = m - 1 - q := ⟨_, rfl⟩
    have e1 : m - q + off = k + off + 1 := by omega
    have e2 : m - (q+1) + off = k + off := by omega
    have e3 : m - q = k + 1 := by omega
    have e4 : m - (q+1) = k := by omega
    rw [e1] at h1 h2 h3 h4
    rw [e2, e4]
    simp only [e3] at h5
    have hkm : k + off < m + off := by omega
    unfold sumStep
    simp only [← hk]
    have hb : ∀ x y, x = pSum (m+off) ((k+off)%2) (k+off) t1 → y = pSum (m+off) ((k+off)%2) (k+off) t2 → ∀ i,
        Function.update s.b k (out k x y) i = if k ≤ i ∧ i < m then
          out i (pSum (m+off) ((i+off)%2) (i+off) t1) (pSum (m+off) ((i+off)%2) (i+off) t2) else b i := by
      rintro x y rfl rfl i
      rw [Function.update_apply, h5]
      by_cases h : i = k
      · subst h; rw [if_pos rfl, if_pos (by omega)]
      · rw [if_neg h]; exact if_congr (by omega) rfl rfl
    by_cases hp : k % 2 = 0
    · rw [if_pos hp]
      have a1 : s.e1 + t1 (k+off) = pSum (m+off) (off%2) (k+off) t1 := by
        rw [pSum_succ t1 hkm (by omega), h1, add_comm]
      have a2 : s.e2 + t2 (k+off) = pSum (m+off) (off%2) (k+off) t2 := by
        rw [pSum_succ t2 hkm (by omega), h2, add_comm]
      have hpp : (k + off) % 2 = off % 2 := by omega
      refine ⟨a1, a2, ?_, ?_, hb _ _ (by rw [hpp]; exact a1) (by rw [hpp]; exact a2)⟩
      · rw [pSum_skip t1 (by omega)]; exact h3
      · rw [pSum_skip t2 (by omega)]; exact h4
    · rw [if_neg hp]
      have a1 : s.o1 + t1 (k+off) = pSum (m+off) ((off+1)%2) (k+off) t1 := by
        rw [pSum_succ t1 hkm (by omega), h3, add_comm]
      have a2 : s.o2 + t2 (k+off) = pSum (m+off) ((off+1)%2) (k+off) t2 := by
        rw [pSum_succ t2 hkm (by omega), h4, add_comm]
      have hpp : (k + off) % 2 = (off + 1) % 2 := by omega
      refine ⟨?_, ?_, a1, a2, hb _ _ (by rw [hpp]; exact a1) (by rw [hpp]; exact a2)⟩
      · rw [pSum_skip t1 (by omega)]; exact h1
      · rw [pSum_skip t2 (by omega)]; exact h2

/-- All rows of the sweep. -/
theorem sumLoop_apply (m off : ℕ) (t1 t2 : ℕ → ℝ) (out : ℕ → ℝ → ℝ → ℝ) (b : ℕ → ℝ) (i : ℕ) :
    (sumLoop m off t1 t2 out b m).b i = if i < m then
      out i (pSum (m+off) ((i+off)%2) (i+off) t1) (pSum (m+off) ((i+off)%2) (i+off) t2) else b i := by
  rw [(sumLoop_inv m off t1 t2 out b m le_rfl).2.2.2.2 i]
  exact if_congr (by omega) rfl rfl

theorem mul_pSum (c : ℝ) (N p t : ℕ) (x : ℕ → ℝ) : c * pSum N p t x = pSum N p t fun j => c * x j := by
  unfold pSum
  rw [Finset.mul_sum]
  exact Finset.sum_congr rfl fun j _ => by rw [mul_ite, mul_zero]

theorem pSum_add (N p t : ℕ) (x y : ℕ → ℝ) : pSum N p t x + pSum N p t y = pSum N p t fun j => x j + y j := by
  unfold pSum
  rw [← Finset.sum_add_distrib]
  refine Finset.sum_congr rfl fun j _ => ?_
  by_cases h : t ≤ j ∧ j % 2 = p
  · simp only [if_pos h]
  · simp only [if_neg h, add_zero]

theorem pSum_sub (N p t : ℕ) (x y : ℕ → ℝ) : pSum N p t x - pSum N p t y = pSum N p t fun j => x j - y j := by
  unfold pSum
  rw [← Finset.sum_sub_distrib]
  refine Finset.sum_congr rfl fun j _ => ?_
  by_cases h : t ≤ j ∧ j % 2 = p
  · simp only [if_pos h]
  · simp only [if_neg h, sub_zero]

/-- A row with single entries and a tail of one parity. -/
theorem sum_row (n : ℕ) (p t : ℕ) (g v : ℕ → ℝ) :
    ∑ j ∈ range n, (if t ≤ j ∧ j % 2 = p then g j else 0) * v j = pSum n p t fun j => g j * v j := by
  unfold pSum
  exact Finset.sum_congr rfl fun j _ => by rw [ite_mul, zero_mul]

/-- Sum over one diagonal. -/
theorem sum_diag (cols i : ℕ) (o : ℤ) (f v : ℕ → ℝ) :
    ∑ j ∈ range cols, (if (j:ℤ) = i + o then f (if i ≤ j then i else j) else 0) * v j =
      if 0 ≤ (i:ℤ) + o ∧ (i:ℤ) + o < cols then
        f (if 0 ≤ o then i else ((i:ℤ) + o).toNat) * v ((i:ℤ) + o).toNat else 0 := by
  by_cases h : 0 ≤ (i:ℤ) + o ∧ (i:ℤ) + o < cols
  · rw [if_pos h, Finset.sum_eq_single ((i:ℤ) + o).toNat]
    · rw [if_pos (by omega)]
      congr 2
      by_cases h2 : 0 ≤ o
      · rw [if_pos (by omega), if_pos h2]
      · rw [if_neg (by omega), if_neg h2]
    · intro j _ hj
      rw [if_neg (by omega), zero_mul]
    · intro hn
      exact absurd (Finset.mem_range.2 (by omega)) hn
  · rw [if_neg h]
    refine Finset.sum_eq_zero fun j hj => ?_
    have := Finset.mem_range.1 hj
    rw [if_neg (by omega), zero_mul]

/-- Contribution of one diagonal to row `i` of a product. -/
def bandTerm (cols : ℕ) (v : ℕ → ℝ) (i : ℕ) (e : ℤ × (ℕ → ℝ)) : ℝ :=
  if 0 ≤ (i:ℤ) + e.1 ∧ (i:ℤ) + e.1 < cols then
    e.2 (if 0 ≤ e.1 then i else ((i:ℤ) + e.1).toNat) * v ((i:ℤ) + e.1).toNat else 0

theorem bandTerm_up (cols : ℕ) (v f : ℕ → ℝ) (i a : ℕ) :
    bandTerm cols v i ((a:ℤ), f) = if i + a < cols then f i * v (i + a) else 0 := by
  unfold bandTerm
  by_cases h : i + a < cols
  · rw [if_pos h, if_pos (by show (0:ℤ) ≤ i + (a:ℤ) ∧ (i:ℤ) + (a:ℤ) < cols; omega), if_pos (by show (0:ℤ) ≤ (a:ℤ); omega)]
    rw [show ((i:ℤ) + ((a:ℤ), f).1).toNat = i + a by show ((i:ℤ) + (a:ℤ)).toNat = i + a; omega]
  · rw [if_neg h, if_neg (by show ¬ ((0:ℤ) ≤ i + (a:ℤ) ∧ (i:ℤ) + (a:ℤ) < cols); omega)]

theorem bandTerm_down (cols : ℕ) (v f : ℕ → ℝ) (i a : ℕ) (ha : 0 < a) :
    bandTerm cols v i (-(a:ℤ), f) = if a ≤ i ∧ i < cols + a then f (i - a) * v (i - a) else 0 := by
  unfold bandTerm
  by_cases h : a ≤ i ∧ i < cols + a
  · rw [if_pos h, if_pos (by show (0:ℤ) ≤ i + -(a:ℤ) ∧ (i:ℤ) + -(a:ℤ) < cols; omega), if_neg (by show ¬ (0:ℤ) ≤ -(a:ℤ); omega)]
    rw [show ((i:ℤ) + (-(a:ℤ), f).1).toNat = i - a by show ((i:ℤ) + -(a:ℤ)).toNat = i - a; omega]
  · rw [if_neg h, if_neg (by show ¬ ((0:ℤ) ≤ i + -(a:ℤ) ∧ (i:ℤ) + -(a:ℤ) < cols); omega)]

theorem bandTerm_0 (cols : ℕ) (v f : ℕ → ℝ) (i : ℕ) :
    bandTerm cols v i (0, f) = if i < cols then f i * v i else 0 := bandTerm_up cols v f i 0
theorem bandTerm_1 (cols : ℕ) (v f : ℕ → ℝ) (i : ℕ) :
    bandTerm cols v i (1, f) = if i + 1 < cols then f i * v (i + 1) else 0 := bandTerm_up cols v f i 1
theorem bandTerm_2 (cols : ℕ) (v f : ℕ → ℝ) (i : ℕ) :
    bandTerm cols v i (2, f) = if i + 2 < cols then f i * v (i + 2) else 0 := bandTerm_up cols v f i 2
theorem bandTerm_3 (cols : ℕ) (v f : ℕ → ℝ) (i : ℕ) :
    bandTerm cols v i (3, f) = if i + 3 < cols then f i * v (i + 3) else 0 := bandTerm_up cols v f i 3
theorem bandTerm_4 (cols : ℕ) (v f : ℕ → ℝ) (i : ℕ) :
    bandTerm cols v i (4, f) = if i + 4 < cols then f i * v (i + 4) else 0 := bandTerm_up cols v f i 4
theorem bandTerm_m1 (cols : ℕ) (v f : ℕ → ℝ) (i : ℕ) :
    bandTerm cols v i (-1, f) = if 1 ≤ i ∧ i < cols + 1 then f (i - 1) * v (i - 1) else 0 := bandTerm_down cols v f i 1 (by omega)
theorem bandTerm_m2 (cols : ℕ) (v f : ℕ → ℝ) (i : ℕ) :
    bandTerm cols v i (-2, f) = if 2 ≤ i ∧ i < cols + 2 then f (i - 2) * v (i - 2) else 0 := bandTerm_down cols v f i 2 (by omega)
theorem bandTerm_m3 (cols : ℕ) (v f : ℕ → ℝ) (i : ℕ) :
    bandTerm cols v i (-3, f) = if 3 ≤ i ∧ i < cols + 3 then f (i - 3) * v (i - 3) else 0 := bandTerm_down cols v f i 3 (by omega)
theorem bandTerm_m4 (cols : ℕ) (v f : ℕ → ℝ) (i : ℕ) :
    bandTerm cols v i (-4, f) = if 4 ≤ i ∧ i < cols + 4 then f (i - 4) * v (i - 4) else 0 := bandTerm_down cols v f i 4 (by omega)

/-- Row `i` of the product with a matrix given by its diagonals. -/
def bandRow (cols : ℕ) (L : List (ℤ × (ℕ → ℝ))) (v : ℕ → ℝ) (i : ℕ) : ℝ := (L.map (bandTerm cols v i)).sum

theorem sum_diagsEntry (cols : ℕ) (L : List (ℤ × (ℕ → ℝ))) (v : ℕ → ℝ) (i : ℕ) :
    ∑ j ∈ range cols, Spec.diagsEntry L i j * v j = bandRow cols L v i := by
  induction L with
  | nil => simp [Spec.diagsEntry, bandRow]
  | cons e L ih =>
    have h1 : ∀ j, Spec.diagsEntry (e :: L) i j = (if (j:ℤ) = i + e.1 then e.2 (if i ≤ j then i else j) else 0) + Spec.diagsEntry L i j := by
      intro j
      unfold Spec.diagsEntry
      rw [List.map_cons, List.sum_cons]
      congr 1
      unfold Spec.diagEntry
      by_cases h : (j:ℤ) = i + e.1
      · rw [if_pos h, if_pos h]
        congr 1
        by_cases h2 : i ≤ j
        · rw [if_pos h2, if_pos (by omega)]
        · rw [if_neg h2, if_neg (by omega)]
      · rw [if_neg h, if_neg h]
    simp only [h1, add_mul]
    rw [Finset.sum_add_distrib, ih, sum_diag]
    unfold bandRow
    rw [List.map_cons, List.sum_cons]
    rfl

theorem scaleArray_apply (c : ℕ → ℝ) (sc : ℝ) (h : sc = 1 ∨ 1e-8 < |sc - 1|) (i : ℕ) : scaleArray c sc i = c i * sc := by
  unfold scaleArray
  rcases h with rfl | h
  · rw [if_neg (by norm_num), mul_one]
  · rw [if_pos h]

end SpecMat

end Shenfun
