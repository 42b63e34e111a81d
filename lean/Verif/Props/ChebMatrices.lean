import Verif.Lemmas.DerivIP
import Verif.Model.ChebMatrices
import Verif.Spec.ChebForms
import Verif.Props.Recursions
import Verif.Props.StencilSpecial

/-!
# C28: hard-coded Chebyshev matrices
-/

namespace Shenfun

open Polynomial Spec

set_option linter.unusedSimpArgs false
set_option linter.unusedTactic false
set_option linter.unreachableTactic false
set_option linter.unusedVariables false

theorem sum_range_ite (n : ℕ) (a lo : ℤ) (g : ℤ → ℝ) :
    ((List.range n).map fun t : ℕ => if a = lo + 2 * (t:ℤ) then g (lo + 2 * (t:ℤ)) else 0).sum =
      if lo ≤ a ∧ a < lo + 2 * n ∧ (a - lo) % 2 = 0 then g a else 0 := by
  induction n with
  | zero => simp; intro h1 h2; omega
  | succ n ih =>
    rw [List.range_succ, List.map_append, List.sum_append, ih]
    simp only [List.map_cons, List.map_nil, List.sum_cons, List.sum_nil, add_zero]
    by_cases h : a = lo + 2 * (n:ℤ)
    · rw [if_neg (by omega), if_pos h, if_pos (by push_cast; omega), zero_add, h]
    · rw [if_neg h, add_zero]
      by_cases h2 : lo ≤ a ∧ a < lo + 2 * n ∧ (a - lo) % 2 = 0
      · rw [if_pos h2, if_pos (by push_cast; omega)]
      · rw [if_neg h2, if_neg (by push_cast; omega)]

/-- Entry of a dictionary built with `fromkeys`. -/
theorem diagsEntry_fromkeys2 (lo hi : ℤ) (f : ℤ → DVal) (k j : ℕ) :
    diagsEntry ((fromkeys2 lo hi f).map fun e => (e.1, e.2.get)) k j =
      if lo ≤ (j:ℤ) - k ∧ (j:ℤ) - k < hi ∧ ((j:ℤ) - k - lo) % 2 = 0 then
        (f ((j:ℤ) - k)).get (if k ≤ j then k else j) else 0 := by
  unfold fromkeys2 diagsEntry
  rw [List.map_map, List.map_map]
  have : ∀ t : ℕ, (((fun d => diagEntry d k j) ∘ fun e : ℤ × DVal => (e.1, e.2.get)) ∘
      fun t : ℕ => (lo + 2 * (t:ℤ), f (lo + 2 * (t:ℤ)))) t =
      if (j:ℤ) - k = lo + 2 * (t:ℤ) then
        (fun a => (f a).get (if 0 ≤ a then k else j)) (lo + 2 * (t:ℤ)) else 0 := by
    intro t
    simp only [Function.comp, diagEntry]
    by_cases h : (j:ℤ) - k = lo + 2 * (t:ℤ)
    · rw [if_pos h, if_pos (by omega)]
    · rw [if_neg h, if_neg (by omega)]
  rw [show (((fun d => diagEntry d k j) ∘ fun e : ℤ × DVal => (e.1, e.2.get)) ∘
      fun t : ℕ => (lo + 2 * (t:ℤ), f (lo + 2 * (t:ℤ)))) = _ from funext this,
    sum_range_ite _ ((j:ℤ) - k) lo fun a => (f a).get (if 0 ≤ a then k else j)]
  have e2 : (if 0 ≤ (j:ℤ) - k then k else j) = if k ≤ j then k else j := by
    by_cases h : k ≤ j
    · rw [if_pos h, if_pos (by omega)]
    · rw [if_neg h, if_neg (by omega)]
  simp only [e2]
  by_cases h : lo ≤ (j:ℤ) - k ∧ (j:ℤ) - k < hi ∧ ((j:ℤ) - k - lo) % 2 = 0
  · rw [if_pos h, if_pos (by omega)]
  · rw [if_neg h, if_neg (by omega)]

theorem diagsEntry_lit_nil (k j : ℕ) : diagsEntry ([] : List (ℤ × (ℕ → ℝ))) k j = 0 := rfl

theorem diagsEntry_lit_cons (o : ℤ) (v : ℕ → ℝ) (L : List (ℤ × (ℕ → ℝ))) (k j : ℕ) :
    diagsEntry ((o, v) :: L) k j = (if (j:ℤ) = k + o then v (if k ≤ j then k else j) else 0) + diagsEntry L k j := by
  unfold diagsEntry
  rw [List.map_cons, List.sum_cons]
  congr 1
  unfold diagEntry
  by_cases h : (j:ℤ) = k + o
  · rw [if_pos h, if_pos h]
    congr 1
    by_cases h2 : k ≤ j
    · rw [if_pos h2, if_pos (by show (0:ℤ) ≤ o; omega)]
    · rw [if_neg h2, if_neg (by show ¬ (0:ℤ) ≤ o; omega)]
  · rw [if_neg h, if_neg h]

/-! ## The bases as combinations of Chebyshev polynomials -/

/-- `T_k`. -/
theorem chebT_lc (k : ℕ) : chebT k = lc chebT [(k, 1)] := by simp [lc]

/-- Basis function `k` of Chebyshev's `ShenDirichlet(N)`. -/
noncomputable abbrev chebSD (N k : ℕ) : ℝ[X] := basisFunction chebT (stencilMatrix ChebStencil.ShenDirichlet N 2) k
/-- Basis function `k` of `ShenNeumann(N)`. -/
noncomputable abbrev chebSN (N k : ℕ) : ℝ[X] := basisFunction chebT (stencilMatrix ChebStencil.ShenNeumann N 2) k
/-- Basis function `k` of `ShenBiharmonic(N)`. -/
noncomputable abbrev chebSB (N k : ℕ) : ℝ[X] := basisFunction chebT (stencilMatrix ChebStencil.ShenBiharmonic N 4) k
/-- Basis function `k` of `LowerDirichlet(N)`. -/
noncomputable abbrev chebLD (N k : ℕ) : ℝ[X] := basisFunction chebT (stencilMatrix ChebStencil.LowerDirichlet N 1) k
/-- Basis function `k` of `Heinrichs(N)`. -/
noncomputable abbrev chebHH (scaled : Bool) (N k : ℕ) : ℝ[X] := basisFunction chebT (ChebStencil.heinrichs scaled N) k
/-- Basis function `k` of `CombinedShenNeumann(N)`. -/
noncomputable abbrev chebCN (N k : ℕ) : ℝ[X] := basisFunction chebT (ChebStencil.combinedShenNeumann N) k
/-- Basis function `k` of `MikNeumann(N)`. -/
noncomputable abbrev chebMN (N k : ℕ) : ℝ[X] := basisFunction chebT (ChebStencil.mikNeumann N) k

theorem chebSD_lc {N k : ℕ} (hk : k < N - 2) : chebSD N k = lc chebT [(k, 1), (k+2, -1)] := by
  rw [chebSD, basisFunction_stencil _ _ _ _ _ hk (by simp [ChebStencil.ShenDirichlet])]
  simp [ChebStencil.ShenDirichlet, SVal.at, lc]

theorem chebSN_lc {N k : ℕ} (hk : k < N - 2) :
    chebSN N k = lc chebT [(k, 1), (k+2, -(((k:ℝ) / (k + 2)) ^ 2))] := by
  rw [chebSN, basisFunction_stencil _ _ _ _ _ hk (by simp [ChebStencil.ShenNeumann])]
  simp [ChebStencil.ShenNeumann, SVal.at, lc]

theorem chebSB_lc {N k : ℕ} (hk : k < N - 4) :
    chebSB N k = lc chebT [(k, 1), (k+2, -(2 * (k:ℝ) + 4) / (k + 3)), (k+4, ((k:ℝ) + 1) / (k + 3))] := by
  rw [chebSB, basisFunction_stencil _ _ _ _ _ hk (by simp [ChebStencil.ShenBiharmonic])]
  simp [ChebStencil.ShenBiharmonic, SVal.at, lc]

theorem chebLD_lc {N k : ℕ} (hk : k < N - 1) : chebLD N k = lc chebT [(k, 1), (k+1, 1)] := by
  rw [chebLD, basisFunction_stencil _ _ _ _ _ hk (by simp [ChebStencil.LowerDirichlet])]
  simp [ChebStencil.LowerDirichlet, SVal.at, lc]

/-- Expansion of a form. -/
theorem chebForm_lc (r : ℕ) (c : ℕ → ℕ → ℝ) (hc : ∀ k j, chebI (chebT k * derivative^[r] (chebT j)) = c k j)
    (L M : List (ℕ × ℝ)) :
    chebForm r (lc chebT L) (lc chebT M) = (L.map fun e => (M.map fun f => e.2 * f.2 * c e.1 f.1).sum).sum := by
  show chebI _ = _
  rw [iterate_derivative_lc, map_lc_mul_lc]
  simp only [hc]

theorem toNat_cast_add_sub (k a : ℕ) : (((k + a : ℕ) : ℤ) - (k:ℤ)).toNat = a := by omega
theorem toNat_cast_add_add_sub (k a b : ℕ) : (((k + a + b : ℕ) : ℤ) - (k:ℤ)).toNat = a + b := by omega

/-- Lengths of the arrays of a dictionary given as a literal. -/
macro "lens_lit" : tactic => `(tactic|
  (simp only [List.forall_mem_cons, List.not_mem_nil, IsEmpty.forall_iff, implies_true, and_true, DVal.Fits, diagLength,
     true_and, dmax]
   repeat' apply And.intro
   all_goals first
     | trivial
     | (simp; done)
     | (simp; omega)
     | (simp [show Int.sign 2 = 1 from rfl, show Int.sign (-2) = -1 from rfl]; omega)))

/-- Lengths of the arrays of a dictionary made with `fromkeys`. -/
macro "lens_keys" : tactic => `(tactic|
  (intro e he
   simp only [fromkeys2, List.mem_map, List.mem_range] at he
   obtain ⟨t, ht, he⟩ := he
   subst he
   try dsimp only
   simp only [diagLength]
   split_ifs <;> simp only [DVal.Fits] <;> omega))

/-- Close one case of an entry computation. -/
macro "entry_close" : tactic => `(tactic|
  (ifs
   try simp only [DVal.get, toNat_cast_add_sub, toNat_cast_add_add_sub]
   try push_cast
   try field_simp
   try ring))

/-- Distance of row and column. -/
theorem entry_dist (k j : ℕ) : j + 5 ≤ k ∨ k = j + 4 ∨ k = j + 3 ∨ k = j + 2 ∨ k = j + 1 ∨ j = k ∨ j = k + 1 ∨ j = k + 2 ∨
    j = k + 3 ∨ j = k + 4 ∨ ∃ s, j = k + 5 + s := by
  rcases Nat.lt_or_ge j (k+5) with h | h
  · omega
  · exact Or.inr (Or.inr (Or.inr (Or.inr (Or.inr (Or.inr (Or.inr (Or.inr (Or.inr (Or.inr ⟨j - k - 5, by omega⟩)))))))))

/-- Split on the distance of row and column and close each case. -/
macro "entry_cases" k:ident j:ident : tactic => `(tactic|
  (rcases entry_dist $k $j with hd | hd | hd | hd | hd | hd | hd | hd | hd | hd | ⟨s, hd⟩
   all_goals try subst hd
   all_goals first
     | (entry_close; done)
     | (by_cases hp : s % 2 = 0 <;> entry_close; done)
     | (by_cases hp : ($j + $k) % 2 = 0 <;> entry_close; done)
     | skip))

/-- **C28** `ASDSDmat`. -/
theorem C28_cheb_ASDSD (N : ℕ) :
    IsMatrixOf (ChebMat.ASDSD N) (N-2) (N-2) fun k j => chebForm 2 (chebSD N k) (chebSD N j) := by
  unfold ChebMat.ASDSD
  try dsimp only
  constructor
  · lens_keys
  · intro k hk j hj
    rw [DMat.mat, denseAt_new _ _ _ _ _ hk hj, chebSD_lc hk, chebSD_lc hj, chebForm_lc 2 _ chebI_two, diagsEntry_fromkeys2]
    simp only [List.map_cons, List.map_nil, List.sum_cons, List.sum_nil, chebC2]
    entry_cases k j

/-- **C28** `CSDSNmat`. -/
theorem C28_cheb_CSDSN (N : ℕ) :
    IsMatrixOf (ChebMat.CSDSN N) (N-2) (N-2) fun k j => chebForm 1 (chebSD N k) (chebSN N j) := by
  unfold ChebMat.CSDSN
  try dsimp only
  constructor
  · lens_lit
  · intro k hk j hj
    rw [DMat.mat, denseAt_new _ _ _ _ _ hk hj, chebSD_lc hk, chebSN_lc hj, chebForm_lc 1 _ chebI_one]
    simp only [List.map_cons, List.map_nil, List.sum_cons, List.sum_nil, chebC1, diagsEntry_lit_cons, diagsEntry_lit_nil]
    entry_cases k j

/-- **C28** `CSDSDmat`. -/
theorem C28_cheb_CSDSD (N : ℕ) :
    IsMatrixOf (ChebMat.CSDSD N) (N-2) (N-2) fun k j => chebForm 1 (chebSD N k) (chebSD N j) := by
  unfold ChebMat.CSDSD
  try dsimp only
  constructor
  · lens_lit
  · intro k hk j hj
    rw [DMat.mat, denseAt_new _ _ _ _ _ hk hj, chebSD_lc hk, chebSD_lc hj, chebForm_lc 1 _ chebI_one]
    simp only [List.map_cons, List.map_nil, List.sum_cons, List.sum_nil, chebC1, diagsEntry_lit_cons, diagsEntry_lit_nil]
    entry_cases k j

/-- **C28** `CSNSDmat`. -/
theorem C28_cheb_CSNSD (N : ℕ) :
    IsMatrixOf (ChebMat.CSNSD N) (N-2) (N-2) fun k j => chebForm 1 (chebSN N k) (chebSD N j) := by
  unfold ChebMat.CSNSD
  try dsimp only
  constructor
  · lens_keys
  · intro k hk j hj
    rw [DMat.mat, denseAt_new _ _ _ _ _ hk hj, chebSN_lc hk, chebSD_lc hj, chebForm_lc 1 _ chebI_one, diagsEntry_fromkeys2]
    simp only [List.map_cons, List.map_nil, List.sum_cons, List.sum_nil, chebC1]
    entry_cases k j

/-- **C28** `CTSDmat`. -/
theorem C28_cheb_CTSD (N : ℕ) :
    IsMatrixOf (ChebMat.CTSD N) N (N-2) fun k j => chebForm 1 (chebT k) (chebSD N j) := by
  unfold ChebMat.CTSD
  try dsimp only
  constructor
  · lens_keys
  · intro k hk j hj
    rw [DMat.mat, denseAt_new _ _ _ _ _ hk hj, show chebForm 1 (chebT k) (chebSD N j) = chebForm 1 (lc chebT [(k, 1)]) (chebSD N j) by rw [← chebT_lc], chebSD_lc hj, chebForm_lc 1 _ chebI_one, diagsEntry_fromkeys2]
    simp only [List.map_cons, List.map_nil, List.sum_cons, List.sum_nil, chebC1]
    entry_cases k j

/-- **C28** `ASBTmat`. -/
theorem C28_cheb_ASBT (tN uN : ℕ) :
    IsMatrixOf (ChebMat.ASBT tN uN) (tN-4) uN fun k j => chebForm 2 (chebSB tN k) (chebT j) := by
  unfold ChebMat.ASBT
  try dsimp only
  constructor
  · lens_lit
  · intro k hk j hj
    rw [DMat.mat, denseAt_new _ _ _ _ _ hk hj, chebSB_lc hk, show ∀ p, chebForm 2 p (chebT j) = chebForm 2 p (lc chebT [(j, 1)]) from fun p => by rw [← chebT_lc], chebForm_lc 2 _ chebI_two]
    simp only [List.map_cons, List.map_nil, List.sum_cons, List.sum_nil, chebC2, diagsEntry_lit_cons, diagsEntry_lit_nil]
    entry_cases k j

/-- **C28** `CSDTmat`. -/
theorem C28_cheb_CSDT (N : ℕ) :
    IsMatrixOf (ChebMat.CSDT N) (N-2) N fun k j => chebForm 1 (chebSD N k) (chebT j) := by
  unfold ChebMat.CSDT
  try dsimp only
  constructor
  · lens_lit
  · intro k hk j hj
    rw [DMat.mat, denseAt_new _ _ _ _ _ hk hj, chebSD_lc hk, show ∀ p, chebForm 1 p (chebT j) = chebForm 1 p (lc chebT [(j, 1)]) from fun p => by rw [← chebT_lc], chebForm_lc 1 _ chebI_one]
    simp only [List.map_cons, List.map_nil, List.sum_cons, List.sum_nil, chebC1, diagsEntry_lit_cons, diagsEntry_lit_nil]
    entry_cases k j

/-- **C28** `CTTmat`. -/
theorem C28_cheb_CTT (tN uN : ℕ) (huN : uN ≤ tN) :
    IsMatrixOf (ChebMat.CTT tN uN) tN uN fun k j => chebForm 1 (chebT k) (chebT j) := by
  unfold ChebMat.CTT
  try dsimp only
  constructor
  · lens_keys
  · intro k hk j hj
    rw [DMat.mat, denseAt_new _ _ _ _ _ hk hj, show chebForm 1 (chebT k) (chebT j) = chebForm 1 (lc chebT [(k, 1)]) (chebT j) by rw [← chebT_lc], show chebForm 1 (lc chebT [(k, 1)]) (chebT j) = chebForm 1 (lc chebT [(k, 1)]) (lc chebT [(j, 1)]) by rw [← chebT_lc j], chebForm_lc 1 _ chebI_one, diagsEntry_fromkeys2]
    simp only [List.map_cons, List.map_nil, List.sum_cons, List.sum_nil, chebC1]
    entry_cases k j

/-- **C28** `CSBSDmat`. -/
theorem C28_cheb_CSBSD (N : ℕ) :
    IsMatrixOf (ChebMat.CSBSD N) (N-4) (N-2) fun k j => chebForm 1 (chebSB N k) (chebSD N j) := by
  unfold ChebMat.CSBSD
  try dsimp only
  constructor
  · lens_lit
  · intro k hk j hj
    rw [DMat.mat, denseAt_new _ _ _ _ _ hk hj, chebSB_lc hk, chebSD_lc hj, chebForm_lc 1 _ chebI_one]
    simp only [List.map_cons, List.map_nil, List.sum_cons, List.sum_nil, chebC1, diagsEntry_lit_cons, diagsEntry_lit_nil]
    entry_cases k j

/-- **C28** `CSDSBmat`. -/
theorem C28_cheb_CSDSB (N : ℕ) :
    IsMatrixOf (ChebMat.CSDSB N) (N-2) (N-4) fun k j => chebForm 1 (chebSD N k) (chebSB N j) := by
  unfold ChebMat.CSDSB
  try dsimp only
  constructor
  · lens_lit
  · intro k hk j hj
    rw [DMat.mat, denseAt_new _ _ _ _ _ hk hj, chebSD_lc hk, chebSB_lc hj, chebForm_lc 1 _ chebI_one]
    simp only [List.map_cons, List.map_nil, List.sum_cons, List.sum_nil, chebC1, diagsEntry_lit_cons, diagsEntry_lit_nil]
    entry_cases k j

/-- **C28** `ASBSBmat`. -/
theorem C28_cheb_ASBSB (N : ℕ) :
    IsMatrixOf (ChebMat.ASBSB N) (N-4) (N-4) fun k j => chebForm 2 (chebSB N k) (chebSB N j) := by
  unfold ChebMat.ASBSB
  try dsimp only
  constructor
  · lens_lit
  · intro k hk j hj
    rw [DMat.mat, denseAt_new _ _ _ _ _ hk hj, chebSB_lc hk, chebSB_lc hj, chebForm_lc 2 _ chebI_two]
    simp only [List.map_cons, List.map_nil, List.sum_cons, List.sum_nil, chebC2, diagsEntry_lit_cons, diagsEntry_lit_nil]
    entry_cases k j

/-- **C28** `ASNSNmat`. -/
theorem C28_cheb_ASNSN (N : ℕ) :
    IsMatrixOf (ChebMat.ASNSN N) (N-2) (N-2) fun k j => chebForm 2 (chebSN N k) (chebSN N j) := by
  unfold ChebMat.ASNSN
  try dsimp only
  constructor
  · lens_keys
  · intro k hk j hj
    rw [DMat.mat, denseAt_new _ _ _ _ _ hk hj, chebSN_lc hk, chebSN_lc hj, chebForm_lc 2 _ chebI_two, diagsEntry_fromkeys2]
    simp only [List.map_cons, List.map_nil, List.sum_cons, List.sum_nil, chebC2]
    entry_cases k j

/-- **C28** `ASBSDmat`. -/
theorem C28_cheb_ASBSD (tN uN : ℕ) :
    IsMatrixOf (ChebMat.ASBSD tN uN) (tN-4) (uN-2) fun k j => chebForm 2 (chebSB tN k) (chebSD uN j) := by
  unfold ChebMat.ASBSD
  try dsimp only
  constructor
  · lens_lit
  · intro k hk j hj
    rw [DMat.mat, denseAt_new _ _ _ _ _ hk hj, chebSB_lc hk, chebSD_lc hj, chebForm_lc 2 _ chebI_two]
    simp only [List.map_cons, List.map_nil, List.sum_cons, List.sum_nil, chebC2, diagsEntry_lit_cons, diagsEntry_lit_nil]
    entry_cases k j

/-- **C28** `ATTmat`. -/
theorem C28_cheb_ATT (tN uN : ℕ) (huN : uN ≤ tN) :
    IsMatrixOf (ChebMat.ATT tN uN) tN uN fun k j => chebForm 2 (chebT k) (chebT j) := by
  unfold ChebMat.ATT
  try dsimp only
  constructor
  · lens_keys
  · intro k hk j hj
    rw [DMat.mat, denseAt_new _ _ _ _ _ hk hj, show chebForm 2 (chebT k) (chebT j) = chebForm 2 (lc chebT [(k, 1)]) (chebT j) by rw [← chebT_lc], show chebForm 2 (lc chebT [(k, 1)]) (chebT j) = chebForm 2 (lc chebT [(k, 1)]) (lc chebT [(j, 1)]) by rw [← chebT_lc j], chebForm_lc 2 _ chebI_two, diagsEntry_fromkeys2]
    simp only [List.map_cons, List.map_nil, List.sum_cons, List.sum_nil, chebC2]
    entry_cases k j

/-- **C28** `ATSDmat`. -/
theorem C28_cheb_ATSD (N : ℕ) :
    IsMatrixOf (ChebMat.ATSD N) N (N-2) fun k j => chebForm 2 (chebT k) (chebSD N j) := by
  unfold ChebMat.ATSD
  try dsimp only
  constructor
  · lens_keys
  · intro k hk j hj
    rw [DMat.mat, denseAt_new _ _ _ _ _ hk hj, show chebForm 2 (chebT k) (chebSD N j) = chebForm 2 (lc chebT [(k, 1)]) (chebSD N j) by rw [← chebT_lc], chebSD_lc hj, chebForm_lc 2 _ chebI_two, diagsEntry_fromkeys2]
    simp only [List.map_cons, List.map_nil, List.sum_cons, List.sum_nil, chebC2]
    entry_cases k j

/-- **C28** `ATSNmat`. -/
theorem C28_cheb_ATSN (N : ℕ) :
    IsMatrixOf (ChebMat.ATSN N) N (N-2) fun k j => chebForm 2 (chebT k) (chebSN N j) := by
  unfold ChebMat.ATSN
  try dsimp only
  constructor
  · lens_keys
  · intro k hk j hj
    rw [DMat.mat, denseAt_new _ _ _ _ _ hk hj, show chebForm 2 (chebT k) (chebSN N j) = chebForm 2 (lc chebT [(k, 1)]) (chebSN N j) by rw [← chebT_lc], chebSN_lc hj, chebForm_lc 2 _ chebI_two, diagsEntry_fromkeys2]
    simp only [List.map_cons, List.map_nil, List.sum_cons, List.sum_nil, chebC2]
    entry_cases k j

/-- **C28** `SSBSBmat`. -/
theorem C28_cheb_SSBSB (N : ℕ) :
    IsMatrixOf (ChebMat.SSBSB N) (N-4) (N-4) fun k j => chebForm 4 (chebSB N k) (chebSB N j) := by
  unfold ChebMat.SSBSB
  try dsimp only
  constructor
  · lens_keys
  · intro k hk j hj
    rw [DMat.mat, denseAt_new _ _ _ _ _ hk hj, chebSB_lc hk, chebSB_lc hj, chebForm_lc 4 _ chebI_four, diagsEntry_fromkeys2]
    simp only [List.map_cons, List.map_nil, List.sum_cons, List.sum_nil, chebC4]
    entry_cases k j

/-! ## Mass matrices: any inner product in which the Chebyshev polynomials are orthogonal with norms `h` -/

/-- Close one case of an entry of a mass matrix. -/
macro "mass_close" hmid:ident h1:ident : tactic => `(tactic|
  (ifs
   try simp only [DVal.get, toNat_cast_add_sub, toNat_cast_add_add_sub]
   try simp only [Nat.add_assoc, Nat.reduceAdd]
   try simp (disch := omega) only [$hmid:ident]
   try push_cast
   try field_simp
   try ring))

/-- Split on the distance of row and column and close each case. -/
macro "mass_cases" k:ident j:ident hmid:ident h1:ident : tactic => `(tactic|
  (rcases entry_dist $k $j with hd | hd | hd | hd | hd | hd | hd | hd | hd | hd | ⟨s, hd⟩
   all_goals try subst hd
   all_goals first
     | (mass_close $hmid $h1; done)
     | skip))

/-- **C28** `BTTmat`. -/
theorem C28_cheb_BTT (tN uN : ℕ) (h : ℕ → ℝ) (I : ℝ[X] →ₗ[ℝ] ℝ) (hh : ChebNorms tN uN h)
    (hI : OrthogonalForm chebT I tN uN h) :
    IsMatrixOf (ChebMat.BTT tN uN h) tN uN fun k j => I (chebT k * chebT j) := by
  have hI' : ∀ m n, m < tN → n < uN → I (chebT m * chebT n) = if m = n then h n else 0 := fun m n h1 h2 => hI m h1 n h2
  have hmid := hh.mid
  have hmid' : ∀ k, ¬ (k + 1 + 1 = tN ∧ k + 1 + 1 = uN) → h (k+1) = Real.pi / 2 := fun k h1 => hh.mid _ (by omega) h1
  unfold ChebMat.BTT
  try dsimp only
  constructor
  · lens_lit
  · intro k hk j hj
    show _ = I (chebT k * chebT j)
    rw [DMat.mat, denseAt_new _ _ _ _ _ hk hj, show I (chebT k * chebT j) = I (lc chebT [(k, 1)] * lc chebT [(j, 1)]) by rw [← chebT_lc, ← chebT_lc], map_lc_mul_lc]
    simp only [List.map_cons, List.map_nil, List.sum_cons, List.sum_nil, diagsEntry_lit_cons, diagsEntry_lit_nil]
    simp (disch := omega) only [hI']
    mass_cases k j hmid hmid'

/-- **C28** `BSDSDmat`. -/
theorem C28_cheb_BSDSD (tN uN : ℕ) (h : ℕ → ℝ) (I : ℝ[X] →ₗ[ℝ] ℝ) (hh : ChebNorms tN uN h)
    (hI : OrthogonalForm chebT I tN uN h) :
    IsMatrixOf (ChebMat.BSDSD tN uN h) (tN-2) (uN-2) fun k j => I (chebSD tN k * chebSD uN j) := by
  have hI' : ∀ m n, m < tN → n < uN → I (chebT m * chebT n) = if m = n then h n else 0 := fun m n h1 h2 => hI m h1 n h2
  have hmid := hh.mid
  have hmid' : ∀ k, ¬ (k + 1 + 1 = tN ∧ k + 1 + 1 = uN) → h (k+1) = Real.pi / 2 := fun k h1 => hh.mid _ (by omega) h1
  unfold ChebMat.BSDSD
  try dsimp only
  constructor
  · lens_lit
  · intro k hk j hj
    show _ = I (chebSD tN k * chebSD uN j)
    rw [DMat.mat, denseAt_new _ _ _ _ _ hk hj, chebSD_lc hk, chebSD_lc hj, map_lc_mul_lc]
    simp only [List.map_cons, List.map_nil, List.sum_cons, List.sum_nil, diagsEntry_lit_cons, diagsEntry_lit_nil]
    simp (disch := omega) only [hI']
    mass_cases k j hmid hmid'

/-- **C28** `BSNSDmat`. -/
theorem C28_cheb_BSNSD (tN uN : ℕ) (h : ℕ → ℝ) (I : ℝ[X] →ₗ[ℝ] ℝ) (hh : ChebNorms tN uN h)
    (hI : OrthogonalForm chebT I tN uN h) :
    IsMatrixOf (ChebMat.BSNSD tN uN h) (tN-2) (uN-2) fun k j => I (chebSN tN k * chebSD uN j) := by
  have hI' : ∀ m n, m < tN → n < uN → I (chebT m * chebT n) = if m = n then h n else 0 := fun m n h1 h2 => hI m h1 n h2
  have hmid := hh.mid
  have hmid' : ∀ k, ¬ (k + 1 + 1 = tN ∧ k + 1 + 1 = uN) → h (k+1) = Real.pi / 2 := fun k h1 => hh.mid _ (by omega) h1
  unfold ChebMat.BSNSD
  try dsimp only
  constructor
  · lens_lit
  · intro k hk j hj
    show _ = I (chebSN tN k * chebSD uN j)
    rw [DMat.mat, denseAt_new _ _ _ _ _ hk hj, chebSN_lc hk, chebSD_lc hj, map_lc_mul_lc]
    simp only [List.map_cons, List.map_nil, List.sum_cons, List.sum_nil, diagsEntry_lit_cons, diagsEntry_lit_nil]
    simp (disch := omega) only [hI']
    mass_cases k j hmid hmid'

/-- **C28** `BSDSNmat`. -/
theorem C28_cheb_BSDSN (tN uN : ℕ) (h : ℕ → ℝ) (I : ℝ[X] →ₗ[ℝ] ℝ) (hh : ChebNorms tN uN h)
    (hI : OrthogonalForm chebT I tN uN h) :
    IsMatrixOf (ChebMat.BSDSN tN uN h) (tN-2) (uN-2) fun k j => I (chebSD tN k * chebSN uN j) := by
  have hI' : ∀ m n, m < tN → n < uN → I (chebT m * chebT n) = if m = n then h n else 0 := fun m n h1 h2 => hI m h1 n h2
  have hmid := hh.mid
  have hmid' : ∀ k, ¬ (k + 1 + 1 = tN ∧ k + 1 + 1 = uN) → h (k+1) = Real.pi / 2 := fun k h1 => hh.mid _ (by omega) h1
  unfold ChebMat.BSDSN
  try dsimp only
  constructor
  · lens_lit
  · intro k hk j hj
    show _ = I (chebSD tN k * chebSN uN j)
    rw [DMat.mat, denseAt_new _ _ _ _ _ hk hj, chebSD_lc hk, chebSN_lc hj, map_lc_mul_lc]
    simp only [List.map_cons, List.map_nil, List.sum_cons, List.sum_nil, diagsEntry_lit_cons, diagsEntry_lit_nil]
    simp (disch := omega) only [hI']
    mass_cases k j hmid hmid'

/-- **C28** `BLDLDmat`. -/
theorem C28_cheb_BLDLD (tN uN : ℕ) (h : ℕ → ℝ) (I : ℝ[X] →ₗ[ℝ] ℝ) (hh : ChebNorms tN uN h)
    (hI : OrthogonalForm chebT I tN uN h) :
    IsMatrixOf (ChebMat.BLDLD tN uN h) (tN-1) (uN-1) fun k j => I (chebLD tN k * chebLD uN j) := by
  have hI' : ∀ m n, m < tN → n < uN → I (chebT m * chebT n) = if m = n then h n else 0 := fun m n h1 h2 => hI m h1 n h2
  have hmid := hh.mid
  have hmid' : ∀ k, ¬ (k + 1 + 1 = tN ∧ k + 1 + 1 = uN) → h (k+1) = Real.pi / 2 := fun k h1 => hh.mid _ (by omega) h1
  unfold ChebMat.BLDLD
  try dsimp only
  constructor
  · lens_lit
  · intro k hk j hj
    show _ = I (chebLD tN k * chebLD uN j)
    rw [DMat.mat, denseAt_new _ _ _ _ _ hk hj, chebLD_lc hk, chebLD_lc hj, map_lc_mul_lc]
    simp only [List.map_cons, List.map_nil, List.sum_cons, List.sum_nil, diagsEntry_lit_cons, diagsEntry_lit_nil]
    simp (disch := omega) only [hI']
    mass_cases k j hmid hmid'

/-- **C28** `BSNSNmat`. -/
theorem C28_cheb_BSNSN (N : ℕ) (h : ℕ → ℝ) (I : ℝ[X] →ₗ[ℝ] ℝ) (hh : ChebNorms N N h)
    (hI : OrthogonalForm chebT I N N h) :
    IsMatrixOf (ChebMat.BSNSN N N h) (N-2) (N-2) fun k j => I (chebSN N k * chebSN N j) := by
  have hI' : ∀ m n, m < N → n < N → I (chebT m * chebT n) = if m = n then h n else 0 := fun m n h1 h2 => hI m h1 n h2
  have hmid := hh.mid
  have hmid' : ∀ k, ¬ (k + 1 + 1 = N ∧ k + 1 + 1 = N) → h (k+1) = Real.pi / 2 := fun k h1 => hh.mid _ (by omega) h1
  unfold ChebMat.BSNSN
  try dsimp only
  constructor
  · lens_lit
  · intro k hk j hj
    show _ = I (chebSN N k * chebSN N j)
    rw [DMat.mat, denseAt_new _ _ _ _ _ hk hj, chebSN_lc hk, chebSN_lc hj, map_lc_mul_lc]
    simp only [List.map_cons, List.map_nil, List.sum_cons, List.sum_nil, diagsEntry_lit_cons, diagsEntry_lit_nil]
    simp (disch := omega) only [hI']
    mass_cases k j hmid hmid'

/-- **C28** `BSDTmat`. -/
theorem C28_cheb_BSDT (tN uN : ℕ) (h : ℕ → ℝ) (I : ℝ[X] →ₗ[ℝ] ℝ) (hh : ChebNorms tN uN h)
    (hI : OrthogonalForm chebT I tN uN h) :
    IsMatrixOf (ChebMat.BSDT tN uN h) (tN-2) uN fun k j => I (chebSD tN k * chebT j) := by
  have hI' : ∀ m n, m < tN → n < uN → I (chebT m * chebT n) = if m = n then h n else 0 := fun m n h1 h2 => hI m h1 n h2
  have hmid := hh.mid
  have hmid' : ∀ k, ¬ (k + 1 + 1 = tN ∧ k + 1 + 1 = uN) → h (k+1) = Real.pi / 2 := fun k h1 => hh.mid _ (by omega) h1
  unfold ChebMat.BSDT
  try dsimp only
  constructor
  · lens_lit
  · intro k hk j hj
    show _ = I (chebSD tN k * chebT j)
    rw [DMat.mat, denseAt_new _ _ _ _ _ hk hj, show I (chebSD tN k * chebT j) = I (chebSD tN k * lc chebT [(j, 1)]) by rw [← chebT_lc], chebSD_lc hk, map_lc_mul_lc]
    simp only [List.map_cons, List.map_nil, List.sum_cons, List.sum_nil, diagsEntry_lit_cons, diagsEntry_lit_nil]
    simp (disch := omega) only [hI']
    mass_cases k j hmid hmid'

/-- **C28** `BTSDmat`. -/
theorem C28_cheb_BTSD (tN uN : ℕ) (h : ℕ → ℝ) (I : ℝ[X] →ₗ[ℝ] ℝ) (hh : ChebNorms tN uN h)
    (hI : OrthogonalForm chebT I tN uN h) :
    IsMatrixOf (ChebMat.BTSD tN uN h) tN (uN-2) fun k j => I (chebT k * chebSD uN j) := by
  have hI' : ∀ m n, m < tN → n < uN → I (chebT m * chebT n) = if m = n then h n else 0 := fun m n h1 h2 => hI m h1 n h2
  have hmid := hh.mid
  have hmid' : ∀ k, ¬ (k + 1 + 1 = tN ∧ k + 1 + 1 = uN) → h (k+1) = Real.pi / 2 := fun k h1 => hh.mid _ (by omega) h1
  unfold ChebMat.BTSD
  try dsimp only
  constructor
  · lens_lit
  · intro k hk j hj
    show _ = I (chebT k * chebSD uN j)
    rw [DMat.mat, denseAt_new _ _ _ _ _ hk hj, show I (chebT k * chebSD uN j) = I (lc chebT [(k, 1)] * chebSD uN j) by rw [← chebT_lc], chebSD_lc hj, map_lc_mul_lc]
    simp only [List.map_cons, List.map_nil, List.sum_cons, List.sum_nil, diagsEntry_lit_cons, diagsEntry_lit_nil]
    simp (disch := omega) only [hI']
    mass_cases k j hmid hmid'

/-- **C28** `BTSNmat`. -/
theorem C28_cheb_BTSN (tN uN : ℕ) (huN : uN ≤ tN) (h : ℕ → ℝ) (I : ℝ[X] →ₗ[ℝ] ℝ) (hh : ChebNorms tN uN h)
    (hI : OrthogonalForm chebT I tN uN h) :
    IsMatrixOf (ChebMat.BTSN tN uN h) tN (uN-2) fun k j => I (chebT k * chebSN uN j) := by
  have hI' : ∀ m n, m < tN → n < uN → I (chebT m * chebT n) = if m = n then h n else 0 := fun m n h1 h2 => hI m h1 n h2
  have hmid := hh.mid
  have hmid' : ∀ k, ¬ (k + 1 + 1 = tN ∧ k + 1 + 1 = uN) → h (k+1) = Real.pi / 2 := fun k h1 => hh.mid _ (by omega) h1
  unfold ChebMat.BTSN
  try dsimp only
  constructor
  · lens_lit
  · intro k hk j hj
    show _ = I (chebT k * chebSN uN j)
    rw [DMat.mat, denseAt_new _ _ _ _ _ hk hj, show I (chebT k * chebSN uN j) = I (lc chebT [(k, 1)] * chebSN uN j) by rw [← chebT_lc], chebSN_lc hj, map_lc_mul_lc]
    simp only [List.map_cons, List.map_nil, List.sum_cons, List.sum_nil, diagsEntry_lit_cons, diagsEntry_lit_nil]
    simp (disch := omega) only [hI']
    mass_cases k j hmid hmid'

/-- **C28** `BSBSBmat`. -/
theorem C28_cheb_BSBSB (N : ℕ) (h : ℕ → ℝ) (I : ℝ[X] →ₗ[ℝ] ℝ) (hh : ChebNorms N N h)
    (hI : OrthogonalForm chebT I N N h) :
    IsMatrixOf (ChebMat.BSBSB N N h) (N-4) (N-4) fun k j => I (chebSB N k * chebSB N j) := by
  have hI' : ∀ m n, m < N → n < N → I (chebT m * chebT n) = if m = n then h n else 0 := fun m n h1 h2 => hI m h1 n h2
  have hmid := hh.mid
  have hmid' : ∀ k, ¬ (k + 1 + 1 = N ∧ k + 1 + 1 = N) → h (k+1) = Real.pi / 2 := fun k h1 => hh.mid _ (by omega) h1
  unfold ChebMat.BSBSB
  try dsimp only
  constructor
  · lens_lit
  · intro k hk j hj
    show _ = I (chebSB N k * chebSB N j)
    rw [DMat.mat, denseAt_new _ _ _ _ _ hk hj, chebSB_lc hk, chebSB_lc hj, map_lc_mul_lc]
    simp only [List.map_cons, List.map_nil, List.sum_cons, List.sum_nil, diagsEntry_lit_cons, diagsEntry_lit_nil]
    simp (disch := omega) only [hI']
    mass_cases k j hmid hmid'

/-- **C28** `BSBSDmat`. -/
theorem C28_cheb_BSBSD (tN uN : ℕ) (h : ℕ → ℝ) (I : ℝ[X] →ₗ[ℝ] ℝ) (hh : ChebNorms tN uN h)
    (hI : OrthogonalForm chebT I tN uN h) :
    IsMatrixOf (ChebMat.BSBSD tN uN h) (tN-4) (uN-2) fun k j => I (chebSB tN k * chebSD uN j) := by
  have hI' : ∀ m n, m < tN → n < uN → I (chebT m * chebT n) = if m = n then h n else 0 := fun m n h1 h2 => hI m h1 n h2
  have hmid := hh.mid
  have hmid' : ∀ k, ¬ (k + 1 + 1 = tN ∧ k + 1 + 1 = uN) → h (k+1) = Real.pi / 2 := fun k h1 => hh.mid _ (by omega) h1
  unfold ChebMat.BSBSD
  try dsimp only
  constructor
  · lens_lit
  · intro k hk j hj
    show _ = I (chebSB tN k * chebSD uN j)
    rw [DMat.mat, denseAt_new _ _ _ _ _ hk hj, chebSB_lc hk, chebSD_lc hj, map_lc_mul_lc]
    simp only [List.map_cons, List.map_nil, List.sum_cons, List.sum_nil, diagsEntry_lit_cons, diagsEntry_lit_nil]
    simp (disch := omega) only [hI']
    mass_cases k j hmid hmid'

/-- **C28** `BSBTmat`. -/
theorem C28_cheb_BSBT (tN uN : ℕ) (h : ℕ → ℝ) (I : ℝ[X] →ₗ[ℝ] ℝ) (hh : ChebNorms tN uN h)
    (hI : OrthogonalForm chebT I tN uN h) :
    IsMatrixOf (ChebMat.BSBT tN uN h) (tN-4) uN fun k j => I (chebSB tN k * chebT j) := by
  have hI' : ∀ m n, m < tN → n < uN → I (chebT m * chebT n) = if m = n then h n else 0 := fun m n h1 h2 => hI m h1 n h2
  have hmid := hh.mid
  have hmid' : ∀ k, ¬ (k + 1 + 1 = tN ∧ k + 1 + 1 = uN) → h (k+1) = Real.pi / 2 := fun k h1 => hh.mid _ (by omega) h1
  unfold ChebMat.BSBT
  try dsimp only
  constructor
  · lens_lit
  · intro k hk j hj
    show _ = I (chebSB tN k * chebT j)
    rw [DMat.mat, denseAt_new _ _ _ _ _ hk hj, show I (chebSB tN k * chebT j) = I (chebSB tN k * lc chebT [(j, 1)]) by rw [← chebT_lc], chebSB_lc hk, map_lc_mul_lc]
    simp only [List.map_cons, List.map_nil, List.sum_cons, List.sum_nil, diagsEntry_lit_cons, diagsEntry_lit_nil]
    simp (disch := omega) only [hI']
    mass_cases k j hmid hmid'

end Shenfun
