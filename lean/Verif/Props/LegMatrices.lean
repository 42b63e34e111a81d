import Verif.Lemmas.LegIP
import Verif.Model.LegMatrices
import Verif.Spec.LegForms
import Verif.Spec.ChebForms
import Verif.Props.ChebMatricesSpecial
import Verif.Props.StencilLeg

/-!
# C56: hard-coded Legendre matrices
-/

namespace Shenfun

open Polynomial Spec

set_option linter.unusedSimpArgs false
set_option linter.unusedTactic false
set_option linter.unreachableTactic false
set_option linter.unusedVariables false

/-! ## The bases as combinations of Legendre polynomials -/

theorem legP_lc (k : ℕ) : legP k = lc legP [(k, 1)] := by simp [lc]

/-- Basis function `k` of Legendre's `ShenDirichlet(N)`. -/
noncomputable abbrev legSD (N k : ℕ) : ℝ[X] := basisFunction legP (stencilMatrix LegStencil.ShenDirichlet N 2) k
/-- Basis function `k` of `ShenDirichlet(N, scaled=True)`. -/
noncomputable abbrev legSDs (N k : ℕ) : ℝ[X] := basisFunction legP (stencilMatrix LegStencil.ShenDirichletScaled N 2) k
/-- Basis function `k` of `ShenNeumann(N)`. -/
noncomputable abbrev legSN (N k : ℕ) : ℝ[X] := basisFunction legP (stencilMatrix LegStencil.ShenNeumann N 2) k
/-- Basis function `k` of `ShenBiharmonic(N)`. -/
noncomputable abbrev legSB (N k : ℕ) : ℝ[X] := basisFunction legP (stencilMatrix LegStencil.ShenBiharmonic N 4) k
/-- Basis function `k` of `DirichletNeumann(N)`. -/
noncomputable abbrev legDN (N k : ℕ) : ℝ[X] := basisFunction legP (stencilMatrix LegStencil.DirichletNeumann N 2) k
/-- Basis function `k` of `BeamFixedFree(N)`. -/
noncomputable abbrev legBF (N k : ℕ) : ℝ[X] := basisFunction legP (stencilMatrix LegStencil.BeamFixedFree N 4) k
/-- Basis function `k` of `UpperDirichlet(N)`. -/
noncomputable abbrev legUD (N k : ℕ) : ℝ[X] := basisFunction legP (stencilMatrix LegStencil.UpperDirichlet N 1) k
/-- Basis function `k` of `LowerDirichlet(N)`. -/
noncomputable abbrev legLD (N k : ℕ) : ℝ[X] := basisFunction legP (stencilMatrix LegStencil.LowerDirichlet N 1) k

theorem legSD_lc {N k : ℕ} (hk : k < N - 2) : legSD N k = lc legP [(k, 1), (k+2, -1)] := by
  rw [legSD, basisFunction_stencil _ _ _ _ _ hk (by simp [LegStencil.ShenDirichlet])]
  simp [LegStencil.ShenDirichlet, SVal.at, lc]

theorem legSDs_lc {N k : ℕ} (hk : k < N - 2) : legSDs N k = lc legP [(k, 1 / LegMat.sq k), (k+2, -1 / LegMat.sq k)] := by
  rw [legSDs, basisFunction_stencil _ _ _ _ _ hk (by simp [LegStencil.ShenDirichletScaled])]
  simp [LegStencil.ShenDirichletScaled, SVal.at, lc, LegMat.sq]

theorem legSN_lc {N k : ℕ} (hk : k < N - 2) :
    legSN N k = lc legP [(k, 1), (k+2, -(k:ℝ) * (k + 1) / ((k + 2) * (k + 3)))] := by
  rw [legSN, basisFunction_stencil _ _ _ _ _ hk (by simp [LegStencil.ShenNeumann])]
  simp [LegStencil.ShenNeumann, SVal.at, lc]
  rw [show ((k:ℝ) + 2) * (k + 3) = k ^ 2 + 5 * k + 6 by ring]
  exact Or.inl rfl

theorem legSB_lc {N k : ℕ} (hk : k < N - 4) :
    legSB N k = lc legP [(k, 1), (k+2, -(4 * (k:ℝ) + 10) / (2 * k + 7)), (k+4, (2 * (k:ℝ) + 3) / (2 * k + 7))] := by
  rw [legSB, basisFunction_stencil _ _ _ _ _ hk (by simp [LegStencil.ShenBiharmonic])]
  simp [LegStencil.ShenBiharmonic, SVal.at, lc]

theorem legDN_lc {N k : ℕ} (hk : k < N - 2) :
    legDN N k = lc legP [(k, 1), (k+1, (2 * (k:ℝ) + 3) / (k + 2) ^ 2), (k+2, -((k:ℝ) + 1) ^ 2 / (k + 2) ^ 2)] := by
  rw [legDN, basisFunction_stencil _ _ _ _ _ hk (by simp [LegStencil.DirichletNeumann])]
  simp [LegStencil.DirichletNeumann, SVal.at, lc]
  rw [show ((k:ℝ) + 2) ^ 2 = k ^ 2 + 4 * k + 4 by ring, show ((k:ℝ) + 1) ^ 2 = k ^ 2 + 2 * k + 1 by ring]
  simp

theorem legBF_lc {N k : ℕ} (hk : k < N - 4) :
    legBF N k = lc legP [(k, 1), (k+1, 4 * (2 * (k:ℝ) + 3) / (k + 3) ^ 2),
      (k+2, -2 * (((k:ℝ) - 1) * (k + 1) * (2 * k + 5) * (k + 6)) / ((k + 3) ^ 2 * (k + 4) * (2 * k + 7))),
      (k+3, -4 * (((k:ℝ) + 1) ^ 2 * (2 * k + 3)) / ((k + 3) ^ 2 * (k + 4) ^ 2)),
      (k+4, (((k:ℝ) + 1) ^ 2 * (k + 2) ^ 2 * (2 * k + 3)) / ((k + 3) ^ 2 * (k + 4) ^ 2 * (2 * k + 7)))] := by
  rw [legBF, basisFunction_stencil _ _ _ _ _ hk (by simp [LegStencil.BeamFixedFree])]
  unfold lc
  congr 1
  simp only [LegStencil.BeamFixedFree, SVal.at, List.map_cons, List.map_nil, add_zero]
  congr 1
  rw [show (k:ℝ) ^ 2 + 6 * k + 9 = (k + 3) ^ 2 by ring,
    show 2 * (-2 * (k:ℝ) ^ 4 - 17 * k ^ 3 - 28 * k ^ 2 + 17 * k + 30) = -2 * ((k - 1) * (k + 1) * (2 * k + 5) * (k + 6)) by ring,
    show 2 * (k:ℝ) ^ 4 + 27 * k ^ 3 + 136 * k ^ 2 + 303 * k + 252 = (k + 3) ^ 2 * (k + 4) * (2 * k + 7) by ring,
    show -(8 * (k:ℝ) ^ 3 + 28 * k ^ 2 + 32 * k + 12) = -4 * ((k + 1) ^ 2 * (2 * k + 3)) by ring,
    show (k:ℝ) ^ 4 + 14 * k ^ 3 + 73 * k ^ 2 + 168 * k + 144 = (k + 3) ^ 2 * (k + 4) ^ 2 by ring,
    show 2 * (k:ℝ) ^ 5 + 15 * k ^ 4 + 44 * k ^ 3 + 63 * k ^ 2 + 44 * k + 12 = (k + 1) ^ 2 * (k + 2) ^ 2 * (2 * k + 3) by ring,
    show 2 * (k:ℝ) ^ 5 + 35 * k ^ 4 + 244 * k ^ 3 + 847 * k ^ 2 + 1464 * k + 1008 =
      (k + 3) ^ 2 * (k + 4) ^ 2 * (2 * k + 7) by ring]

theorem legUD_lc {N k : ℕ} (hk : k < N - 1) : legUD N k = lc legP [(k, 1), (k+1, -1)] := by
  rw [legUD, basisFunction_stencil _ _ _ _ _ hk (by simp [LegStencil.UpperDirichlet])]
  simp [LegStencil.UpperDirichlet, SVal.at, lc]

theorem legLD_lc {N k : ℕ} (hk : k < N - 1) : legLD N k = lc legP [(k, 1), (k+1, 1)] := by
  rw [legLD, basisFunction_stencil _ _ _ _ _ hk (by simp [LegStencil.LowerDirichlet])]
  simp [LegStencil.LowerDirichlet, SVal.at, lc]

/-! ## Reduction of forms -/

theorem legForm_eq (m n : ℕ) (w v u : ℝ[X]) : legForm m n w v u = legI (w * (derivative^[m] v * derivative^[n] u)) := rfl

theorem legForm_comm (m n : ℕ) (w v u : ℝ[X]) : legForm m n w v u = legForm n m w u v := by
  unfold legForm; rw [mul_comm (derivative^[m] v)]

theorem legForm_lc (r : ℕ) (c : ℕ → ℕ → ℝ) (hc : ∀ k j, legI (legP k * derivative^[r] (legP j)) = c k j)
    (L M : List (ℕ × ℝ)) :
    legForm 0 r 1 (lc legP L) (lc legP M) = (L.map fun e => (M.map fun f => e.2 * f.2 * c e.1 f.1).sum).sum := by
  rw [legForm_eq, one_mul, Function.iterate_zero_apply, iterate_derivative_lc, map_lc_mul_lc]
  simp only [hc]

/-- Moving one derivative. -/
theorem legForm_parts (m n : ℕ) (v u : ℝ[X])
    (hr : (derivative^[m] v).eval 1 = 0 ∨ (derivative^[n] u).eval 1 = 0)
    (hl : (derivative^[m] v).eval (-1) = 0 ∨ (derivative^[n] u).eval (-1) = 0) :
    legForm (m+1) n 1 v u = -legForm m (n+1) 1 v u := by
  rw [legForm_eq, legForm_eq, one_mul, one_mul, Function.iterate_succ_apply', Function.iterate_succ_apply', legI_parts,
    eval_mul, eval_mul]
  have h1 : (derivative^[m] v).eval 1 * (derivative^[n] u).eval 1 = 0 := by
    rcases hr with h | h <;> rw [h] <;> simp
  have h2 : (derivative^[m] v).eval (-1) * (derivative^[n] u).eval (-1) = 0 := by
    rcases hl with h | h <;> rw [h] <;> simp
  rw [h1, h2]; ring

theorem Spec.IsMatrixOf.scaled {d : DMat} {rows cols : ℕ} {F : ℕ → ℕ → ℝ} (h : IsMatrixOf d rows cols F) (s : ℝ) :
    IsScaledMatrixOf s d rows cols fun k j => s * F k j := by
  refine ⟨h.lengths, fun k hk j hj => ?_⟩
  show _ = s * F k j
  have h2 := h.entries k hk j hj
  rw [DMat.mat, denseAt_new _ _ _ _ _ hk hj] at h2
  rw [← h2]
  have := SM.entry_new (d.map fun e => (e.1, e.2.get)) rows cols s k j
  rw [← this]
  unfold SM.denseAt SM.entry
  exact if_pos ⟨hk, hj⟩

theorem Spec.IsMatrixOf.congr {d : DMat} {rows cols : ℕ} {F G : ℕ → ℕ → ℝ} (h : IsMatrixOf d rows cols F)
    (hFG : ∀ k < rows, ∀ j < cols, G k j = F k j) : IsMatrixOf d rows cols G :=
  ⟨h.lengths, fun k hk j hj => by rw [h.entries k hk j hj, hFG k hk j hj]⟩

theorem Spec.IsScaledMatrixOf.congr {s : ℝ} {d : DMat} {rows cols : ℕ} {F G : ℕ → ℕ → ℝ} (h : IsScaledMatrixOf s d rows cols F)
    (hFG : ∀ k < rows, ∀ j < cols, G k j = F k j) : IsScaledMatrixOf s d rows cols G :=
  ⟨h.lengths, fun k hk j hj => by rw [h.entries k hk j hj, hFG k hk j hj]⟩

/-! ## Mass matrices: any inner product in which the Legendre polynomials are orthogonal with norms `h` -/

/-- Close one case of an entry of a mass matrix. -/
macro "lmass_close" : tactic => `(tactic|
  (ifs
   try simp only [DVal.get, toNat_cast_add_sub, toNat_cast_add_add_sub]
   try simp only [Nat.add_assoc, Nat.reduceAdd]
   try push_cast
   try field_simp
   try ring))

/-- Split on the distance of row and column and close each case. -/
macro "lmass_cases" k:ident j:ident : tactic => `(tactic|
  (rcases entry_dist $k $j with hd | hd | hd | hd | hd | hd | hd | hd | hd | hd | ⟨s, hd⟩
   all_goals try subst hd
   all_goals first
     | (lmass_close; done)
     | skip))

theorem sq_ne (k : ℕ) : LegMat.sq k ≠ 0 := by unfold LegMat.sq; positivity
theorem sq_mul_sq (k : ℕ) : LegMat.sq k * LegMat.sq k = 4 * k + 6 := Real.mul_self_sqrt (by positivity)

/-- **C56** `BLLmat`. -/
theorem C56_leg_BLL (tN uN : ℕ) (h : ℕ → ℝ) (I : ℝ[X] →ₗ[ℝ] ℝ) (hI : OrthogonalForm legP I tN uN h) :
    IsMatrixOf (LegMat.BLL tN uN h) tN uN fun k j => I (legP k * legP j) := by
  have hI' : ∀ m n, m < tN → n < uN → I (legP m * legP n) = if m = n then h n else 0 := fun m n h1 h2 => hI m h1 n h2
  simp only [LegMat.BLL, if_false, if_true, Bool.false_eq_true]
  constructor
  · lens_lit
  · intro k hk j hj
    show _ = I (legP k * legP j)
    rw [DMat.mat, denseAt_new _ _ _ _ _ hk hj, show legP k * legP j = lc legP [(k, 1)] * lc legP [(j, 1)] by rw [← legP_lc, ← legP_lc], map_lc_mul_lc]
    simp only [List.map_cons, List.map_nil, List.sum_cons, List.sum_nil, diagsEntry_lit_cons, diagsEntry_lit_nil]
    simp (disch := omega) only [hI']
    lmass_cases k j

/-- **C56** `BSDSDmat`. -/
theorem C56_leg_BSDSD (N : ℕ) (h : ℕ → ℝ) (I : ℝ[X] →ₗ[ℝ] ℝ) (hI : OrthogonalForm legP I N N h) :
    IsMatrixOf (LegMat.BSDSD false N h) (N-2) (N-2) fun k j => I (legSD N k * legSD N j) := by
  have hI' : ∀ m n, m < N → n < N → I (legP m * legP n) = if m = n then h n else 0 := fun m n h1 h2 => hI m h1 n h2
  simp only [LegMat.BSDSD, if_false, if_true, Bool.false_eq_true]
  constructor
  · lens_lit
  · intro k hk j hj
    show _ = I (legSD N k * legSD N j)
    rw [DMat.mat, denseAt_new _ _ _ _ _ hk hj, legSD_lc hk, legSD_lc hj, map_lc_mul_lc]
    simp only [List.map_cons, List.map_nil, List.sum_cons, List.sum_nil, diagsEntry_lit_cons, diagsEntry_lit_nil]
    simp (disch := omega) only [hI']
    lmass_cases k j

/-- **C56** `BSNSNmat`. -/
theorem C56_leg_BSNSN (N : ℕ) (h : ℕ → ℝ) (I : ℝ[X] →ₗ[ℝ] ℝ) (hI : OrthogonalForm legP I N N h) :
    IsMatrixOf (LegMat.BSNSN N h) (N-2) (N-2) fun k j => I (legSN N k * legSN N j) := by
  have hI' : ∀ m n, m < N → n < N → I (legP m * legP n) = if m = n then h n else 0 := fun m n h1 h2 => hI m h1 n h2
  simp only [LegMat.BSNSN, if_false, if_true, Bool.false_eq_true]
  constructor
  · lens_lit
  · intro k hk j hj
    show _ = I (legSN N k * legSN N j)
    rw [DMat.mat, denseAt_new _ _ _ _ _ hk hj, legSN_lc hk, legSN_lc hj, map_lc_mul_lc]
    simp only [List.map_cons, List.map_nil, List.sum_cons, List.sum_nil, diagsEntry_lit_cons, diagsEntry_lit_nil]
    simp (disch := omega) only [hI']
    lmass_cases k j

/-- **C56** `BSBSBmat`. -/
theorem C56_leg_BSBSB (N : ℕ) (h : ℕ → ℝ) (I : ℝ[X] →ₗ[ℝ] ℝ) (hI : OrthogonalForm legP I N N h) :
    IsMatrixOf (LegMat.BSBSB N h) (N-4) (N-4) fun k j => I (legSB N k * legSB N j) := by
  have hI' : ∀ m n, m < N → n < N → I (legP m * legP n) = if m = n then h n else 0 := fun m n h1 h2 => hI m h1 n h2
  simp only [LegMat.BSBSB, if_false, if_true, Bool.false_eq_true]
  constructor
  · lens_lit
  · intro k hk j hj
    show _ = I (legSB N k * legSB N j)
    rw [DMat.mat, denseAt_new _ _ _ _ _ hk hj, legSB_lc hk, legSB_lc hj, map_lc_mul_lc]
    simp only [List.map_cons, List.map_nil, List.sum_cons, List.sum_nil, diagsEntry_lit_cons, diagsEntry_lit_nil]
    simp (disch := omega) only [hI']
    lmass_cases k j

/-- **C56** `BSDLmat`. -/
theorem C56_leg_BSDL (N : ℕ) (h : ℕ → ℝ) (I : ℝ[X] →ₗ[ℝ] ℝ) (hI : OrthogonalForm legP I N N h) :
    IsMatrixOf (LegMat.BSDL (fun _ => 1) (fun _ => -1) N h) (N-2) N fun k j => I (legSD N k * legP j) := by
  have hI' : ∀ m n, m < N → n < N → I (legP m * legP n) = if m = n then h n else 0 := fun m n h1 h2 => hI m h1 n h2
  simp only [LegMat.BSDL, if_false, if_true, Bool.false_eq_true]
  constructor
  · lens_lit
  · intro k hk j hj
    show _ = I (legSD N k * legP j)
    rw [DMat.mat, denseAt_new _ _ _ _ _ hk hj, show legSD N k * legP j = legSD N k * lc legP [(j, 1)] by rw [← legP_lc], legSD_lc hk, map_lc_mul_lc]
    simp only [List.map_cons, List.map_nil, List.sum_cons, List.sum_nil, diagsEntry_lit_cons, diagsEntry_lit_nil]
    simp (disch := omega) only [hI']
    lmass_cases k j

/-- **C56** `BLSDmat`. -/
theorem C56_leg_BLSD (N : ℕ) (h : ℕ → ℝ) (I : ℝ[X] →ₗ[ℝ] ℝ) (hI : OrthogonalForm legP I N N h) :
    IsMatrixOf (LegMat.BLSD (fun _ => 1) (fun _ => -1) N h) N (N-2) fun k j => I (legP k * legSD N j) := by
  have hI' : ∀ m n, m < N → n < N → I (legP m * legP n) = if m = n then h n else 0 := fun m n h1 h2 => hI m h1 n h2
  simp only [LegMat.BLSD, if_false, if_true, Bool.false_eq_true]
  constructor
  · lens_lit
  · intro k hk j hj
    show _ = I (legP k * legSD N j)
    rw [DMat.mat, denseAt_new _ _ _ _ _ hk hj, show legP k * legSD N j = lc legP [(k, 1)] * legSD N j by rw [← legP_lc], legSD_lc hj, map_lc_mul_lc]
    simp only [List.map_cons, List.map_nil, List.sum_cons, List.sum_nil, diagsEntry_lit_cons, diagsEntry_lit_nil]
    simp (disch := omega) only [hI']
    lmass_cases k j

/-- **C56** `BSDLmat`, scaled. -/
theorem C56_leg_BSDL_scaled (N : ℕ) (h : ℕ → ℝ) (I : ℝ[X] →ₗ[ℝ] ℝ) (hI : OrthogonalForm legP I N N h) :
    IsMatrixOf (LegMat.BSDL (fun k => 1 / LegMat.sq k) (fun k => -1 / LegMat.sq k) N h) (N-2) N fun k j => I (legSDs N k * legP j) := by
  have hI' : ∀ m n, m < N → n < N → I (legP m * legP n) = if m = n then h n else 0 := fun m n h1 h2 => hI m h1 n h2
  simp only [LegMat.BSDL, if_false, if_true, Bool.false_eq_true]
  constructor
  · lens_lit
  · intro k hk j hj
    show _ = I (legSDs N k * legP j)
    rw [DMat.mat, denseAt_new _ _ _ _ _ hk hj, show legSDs N k * legP j = legSDs N k * lc legP [(j, 1)] by rw [← legP_lc], legSDs_lc hk, map_lc_mul_lc]
    simp only [List.map_cons, List.map_nil, List.sum_cons, List.sum_nil, diagsEntry_lit_cons, diagsEntry_lit_nil]
    simp (disch := omega) only [hI']
    lmass_cases k j

/-- **C56** `BLSDmat`, scaled. -/
theorem C56_leg_BLSD_scaled (N : ℕ) (h : ℕ → ℝ) (I : ℝ[X] →ₗ[ℝ] ℝ) (hI : OrthogonalForm legP I N N h) :
    IsMatrixOf (LegMat.BLSD (fun k => 1 / LegMat.sq k) (fun k => -1 / LegMat.sq k) N h) N (N-2) fun k j => I (legP k * legSDs N j) := by
  have hI' : ∀ m n, m < N → n < N → I (legP m * legP n) = if m = n then h n else 0 := fun m n h1 h2 => hI m h1 n h2
  simp only [LegMat.BLSD, if_false, if_true, Bool.false_eq_true]
  constructor
  · lens_lit
  · intro k hk j hj
    show _ = I (legP k * legSDs N j)
    rw [DMat.mat, denseAt_new _ _ _ _ _ hk hj, show legP k * legSDs N j = lc legP [(k, 1)] * legSDs N j by rw [← legP_lc], legSDs_lc hj, map_lc_mul_lc]
    simp only [List.map_cons, List.map_nil, List.sum_cons, List.sum_nil, diagsEntry_lit_cons, diagsEntry_lit_nil]
    simp (disch := omega) only [hI']
    lmass_cases k j

/-- **C56** `BDNDNmat`. -/
theorem C56_leg_BDNDN (N : ℕ) (h : ℕ → ℝ) (I : ℝ[X] →ₗ[ℝ] ℝ) (hI : OrthogonalForm legP I N N h) :
    IsMatrixOf (LegMat.BDNDN N h) (N-2) (N-2) fun k j => I (legDN N k * legDN N j) := by
  have hI' : ∀ m n, m < N → n < N → I (legP m * legP n) = if m = n then h n else 0 := fun m n h1 h2 => hI m h1 n h2
  simp only [LegMat.BDNDN, if_false, if_true, Bool.false_eq_true]
  constructor
  · lens_lit
  · intro k hk j hj
    show _ = I (legDN N k * legDN N j)
    rw [DMat.mat, denseAt_new _ _ _ _ _ hk hj, legDN_lc hk, legDN_lc hj, map_lc_mul_lc]
    simp only [List.map_cons, List.map_nil, List.sum_cons, List.sum_nil, diagsEntry_lit_cons, diagsEntry_lit_nil]
    simp (disch := omega) only [hI']
    lmass_cases k j

/-- **C56** `BUDUDmat`. -/
theorem C56_leg_BUDUD (N : ℕ) (h : ℕ → ℝ) (I : ℝ[X] →ₗ[ℝ] ℝ) (hI : OrthogonalForm legP I N N h) :
    IsMatrixOf (LegMat.BUDUD N h) (N-1) (N-1) fun k j => I (legUD N k * legUD N j) := by
  have hI' : ∀ m n, m < N → n < N → I (legP m * legP n) = if m = n then h n else 0 := fun m n h1 h2 => hI m h1 n h2
  simp only [LegMat.BUDUD, if_false, if_true, Bool.false_eq_true]
  constructor
  · lens_lit
  · intro k hk j hj
    show _ = I (legUD N k * legUD N j)
    rw [DMat.mat, denseAt_new _ _ _ _ _ hk hj, legUD_lc hk, legUD_lc hj, map_lc_mul_lc]
    simp only [List.map_cons, List.map_nil, List.sum_cons, List.sum_nil, diagsEntry_lit_cons, diagsEntry_lit_nil]
    simp (disch := omega) only [hI']
    lmass_cases k j

/-- **C56** `BLDLDmat`. -/
theorem C56_leg_BLDLD (N : ℕ) (h : ℕ → ℝ) (I : ℝ[X] →ₗ[ℝ] ℝ) (hI : OrthogonalForm legP I N N h) :
    IsMatrixOf (LegMat.BLDLD N h) (N-1) (N-1) fun k j => I (legLD N k * legLD N j) := by
  have hI' : ∀ m n, m < N → n < N → I (legP m * legP n) = if m = n then h n else 0 := fun m n h1 h2 => hI m h1 n h2
  simp only [LegMat.BLDLD, if_false, if_true, Bool.false_eq_true]
  constructor
  · lens_lit
  · intro k hk j hj
    show _ = I (legLD N k * legLD N j)
    rw [DMat.mat, denseAt_new _ _ _ _ _ hk hj, legLD_lc hk, legLD_lc hj, map_lc_mul_lc]
    simp only [List.map_cons, List.map_nil, List.sum_cons, List.sum_nil, diagsEntry_lit_cons, diagsEntry_lit_nil]
    simp (disch := omega) only [hI']
    lmass_cases k j

/-- **C56** `BSDSDmat`, scaled. -/
theorem C56_leg_BSDSD_scaled (N : ℕ) (h : ℕ → ℝ) (I : ℝ[X] →ₗ[ℝ] ℝ) (hI : OrthogonalForm legP I N N h) :
    IsMatrixOf (LegMat.BSDSD true N h) (N-2) (N-2) fun k j => I (legSDs N k * legSDs N j) := by
  have hI' : ∀ m n, m < N → n < N → I (legP m * legP n) = if m = n then h n else 0 := fun m n h1 h2 => hI m h1 n h2
  simp only [LegMat.BSDSD, if_true]
  constructor
  · lens_lit
  · intro k hk j hj
    show _ = I (legSDs N k * legSDs N j)
    rw [DMat.mat, denseAt_new _ _ _ _ _ hk hj, legSDs_lc hk, legSDs_lc hj, map_lc_mul_lc]
    simp only [List.map_cons, List.map_nil, List.sum_cons, List.sum_nil, diagsEntry_lit_cons, diagsEntry_lit_nil]
    simp (disch := omega) only [hI']
    have h1 := sq_ne k
    have h2 := sq_ne j
    rcases entry_dist k j with hd | hd | hd | hd | hd | hd | hd | hd | hd | hd | ⟨s, hd⟩
    all_goals try subst hd
    all_goals ifs
    all_goals try simp only [DVal.get]
    all_goals try ring1
    have h3 : (4 * (j:ℝ) + 6) ≠ 0 := by positivity
    rw [← sq_mul_sq]
    field_simp
    ring

/-! ## Matrices with derivatives -/

/-- Entry of a dictionary built with `fromkeys(-np.arange(..))`. -/
theorem diagsEntry_fromkeys2neg (lo hi : ℤ) (f : ℤ → DVal) (k j : ℕ) :
    diagsEntry ((LegMat.fromkeys2neg lo hi f).map fun e => (e.1, e.2.get)) k j =
      if lo ≤ (k:ℤ) - j ∧ (k:ℤ) - j < hi ∧ ((k:ℤ) - j - lo) % 2 = 0 then
        (f (-((k:ℤ) - j))).get (if k ≤ j then k else j) else 0 := by
  unfold LegMat.fromkeys2neg diagsEntry
  rw [List.map_map, List.map_map]
  have : ∀ t : ℕ, (((fun d => diagEntry d k j) ∘ fun e : ℤ × DVal => (e.1, e.2.get)) ∘
      fun t : ℕ => (-(lo + 2 * (t:ℤ)), f (-(lo + 2 * (t:ℤ))))) t =
      if (k:ℤ) - j = lo + 2 * (t:ℤ) then
        (fun a => (f (-a)).get (if 0 ≤ -a then k else j)) (lo + 2 * (t:ℤ)) else 0 := by
    intro t
    simp only [Function.comp, diagEntry]
    by_cases h : (k:ℤ) - j = lo + 2 * (t:ℤ)
    · rw [if_pos h, if_pos (by omega)]
    · rw [if_neg h, if_neg (by omega)]
  rw [show (((fun d => diagEntry d k j) ∘ fun e : ℤ × DVal => (e.1, e.2.get)) ∘
      fun t : ℕ => (-(lo + 2 * (t:ℤ)), f (-(lo + 2 * (t:ℤ))))) = _ from funext this,
    sum_range_ite _ ((k:ℤ) - j) lo fun a => (f (-a)).get (if 0 ≤ -a then k else j)]
  have e2 : (if 0 ≤ -((k:ℤ) - j) then k else j) = if k ≤ j then k else j := by
    by_cases h : k ≤ j
    · rw [if_pos h, if_pos (by omega)]
    · rw [if_neg h, if_neg (by omega)]
  simp only [e2]
  by_cases h : lo ≤ (k:ℤ) - j ∧ (k:ℤ) - j < hi ∧ ((k:ℤ) - j - lo) % 2 = 0
  · rw [if_pos h, if_pos (by omega)]
  · rw [if_neg h, if_neg (by omega)]

theorem natAbs_cast_add_sub (k a : ℕ) : (((k + a : ℕ) : ℤ) - (k:ℤ)).natAbs = a := by omega
theorem natAbs_cast_add_add_sub (k a b : ℕ) : (((k + a + b : ℕ) : ℤ) - (k:ℤ)).natAbs = a + b := by omega

/-- Lengths of the arrays of a dictionary made with `fromkeys`. -/
macro "lens_keysneg" : tactic => `(tactic|
  (intro e he
   simp only [fromkeys2, LegMat.fromkeys2neg, List.mem_map, List.mem_range] at he
   obtain ⟨t, ht, he⟩ := he
   subst he
   try dsimp only
   simp only [diagLength]
   split_ifs <;> simp only [DVal.Fits] <;> omega))

/-- Close one case of an entry computation. -/
macro "lentry_close" : tactic => `(tactic|
  (ifs
   try simp only [DVal.get, toNat_cast_add_sub, toNat_cast_add_add_sub, natAbs_cast_add_sub, natAbs_cast_add_add_sub,
     Int.natAbs_neg]
   try push_cast
   try field_simp
   try ring1))

/-- Split on the distance of row and column and close each case. -/
macro "lentry_cases" k:ident j:ident : tactic => `(tactic|
  (rcases entry_dist2 $k $j with ⟨s, hd⟩ | hd | hd | hd | hd | hd | hd | hd | hd | hd | ⟨s, hd⟩
   all_goals try subst hd
   all_goals first
     | (lentry_close; done)
     | (by_cases hp : s % 2 = 0 <;> lentry_close; done)
     | skip))

/-- **C56** `CLLmat`, `((L, 0), (L, 1))`. -/
theorem C56_leg_CLL (tN uN : ℕ) :
    IsMatrixOf (LegMat.CLL uN) tN uN fun k j => legForm 0 1 1 (legP k) (legP j) := by
  simp only [LegMat.CLL, if_false, if_true, Bool.false_eq_true]
  constructor
  · lens_keysneg
  · intro k hk j hj
    show _ = legForm 0 1 1 (legP k) (legP j)
    rw [DMat.mat, denseAt_new _ _ _ _ _ hk hj, show legForm 0 1 1 (legP k) (legP j) = legForm 0 1 1 (lc legP [(k, 1)]) (lc legP [(j, 1)]) by rw [← legP_lc, ← legP_lc], legForm_lc 1 _ legI_one, diagsEntry_fromkeys2]
    simp only [List.map_cons, List.map_nil, List.sum_cons, List.sum_nil, legC1, diagsEntry_lit_cons, diagsEntry_lit_nil]
    lentry_cases k j

/-- **C56** `CLLmatT`, `((L, 1), (L, 0))`. -/
theorem C56_leg_CLLT (N : ℕ) :
    IsMatrixOf (LegMat.CLLT N) N N fun k j => legForm 1 0 1 (legP k) (legP j) := by
  simp only [LegMat.CLLT, if_false, if_true, Bool.false_eq_true]
  constructor
  · lens_keysneg
  · intro k hk j hj
    show _ = legForm 1 0 1 (legP k) (legP j)
    rw [DMat.mat, denseAt_new _ _ _ _ _ hk hj, legForm_comm, show legForm 0 1 1 (legP j) (legP k) = legForm 0 1 1 (lc legP [(j, 1)]) (lc legP [(k, 1)]) by rw [← legP_lc, ← legP_lc], legForm_lc 1 _ legI_one, diagsEntry_fromkeys2neg]
    simp only [List.map_cons, List.map_nil, List.sum_cons, List.sum_nil, legC1, diagsEntry_lit_cons, diagsEntry_lit_nil]
    lentry_cases k j

/-- **C56** `ALLmat`, `((L, 0), (L, 2))`. -/
theorem C56_leg_ALL (tN uN : ℕ) (huN : uN ≤ tN) :
    IsMatrixOf (LegMat.ALL tN uN) tN uN fun k j => legForm 0 2 1 (legP k) (legP j) := by
  simp only [LegMat.ALL, if_false, if_true, Bool.false_eq_true]
  constructor
  · lens_keysneg
  · intro k hk j hj
    show _ = legForm 0 2 1 (legP k) (legP j)
    rw [DMat.mat, denseAt_new _ _ _ _ _ hk hj, show legForm 0 2 1 (legP k) (legP j) = legForm 0 2 1 (lc legP [(k, 1)]) (lc legP [(j, 1)]) by rw [← legP_lc, ← legP_lc], legForm_lc 2 _ legI_two, diagsEntry_fromkeys2]
    simp only [List.map_cons, List.map_nil, List.sum_cons, List.sum_nil, legC2, diagsEntry_lit_cons, diagsEntry_lit_nil]
    lentry_cases k j

/-- **C56** `ALLmat`, `((L, 2), (L, 0))`. -/
theorem C56_leg_ALLT (N : ℕ) :
    IsMatrixOf (LegMat.ALLT N N) N N fun k j => legForm 2 0 1 (legP k) (legP j) := by
  simp only [LegMat.ALLT, if_false, if_true, Bool.false_eq_true]
  constructor
  · lens_keysneg
  · intro k hk j hj
    show _ = legForm 2 0 1 (legP k) (legP j)
    rw [DMat.mat, denseAt_new _ _ _ _ _ hk hj, legForm_comm, show legForm 0 2 1 (legP j) (legP k) = legForm 0 2 1 (lc legP [(j, 1)]) (lc legP [(k, 1)]) by rw [← legP_lc, ← legP_lc], legForm_lc 2 _ legI_two, diagsEntry_fromkeys2neg]
    simp only [List.map_cons, List.map_nil, List.sum_cons, List.sum_nil, legC2, diagsEntry_lit_cons, diagsEntry_lit_nil]
    lentry_cases k j

/-- **C56** `CLSDmat`, `((L, 0), (SD, 1))`. -/
theorem C56_leg_CLSD (N : ℕ) :
    IsMatrixOf (LegMat.CLSD false N) N (N-2) fun k j => legForm 0 1 1 (legP k) (legSD N j) := by
  simp only [LegMat.CLSD, if_false, if_true, Bool.false_eq_true]
  constructor
  · lens_lit
  · intro k hk j hj
    show _ = legForm 0 1 1 (legP k) (legSD N j)
    rw [DMat.mat, denseAt_new _ _ _ _ _ hk hj, show legForm 0 1 1 (legP k) (legSD N j) = legForm 0 1 1 (lc legP [(k, 1)]) (legSD N j) by rw [← legP_lc], legSD_lc hj, legForm_lc 1 _ legI_one]
    simp only [List.map_cons, List.map_nil, List.sum_cons, List.sum_nil, legC1, diagsEntry_lit_cons, diagsEntry_lit_nil]
    lentry_cases k j

/-- **C56** `CLSDmat`, scaled. -/
theorem C56_leg_CLSD_scaled (N : ℕ) :
    IsMatrixOf (LegMat.CLSD true N) N (N-2) fun k j => legForm 0 1 1 (legP k) (legSDs N j) := by
  simp only [LegMat.CLSD, if_false, if_true, Bool.false_eq_true]
  constructor
  · lens_lit
  · intro k hk j hj
    show _ = legForm 0 1 1 (legP k) (legSDs N j)
    have s1 := sq_ne k
    have s2 := sq_ne j
    rw [DMat.mat, denseAt_new _ _ _ _ _ hk hj, show legForm 0 1 1 (legP k) (legSDs N j) = legForm 0 1 1 (lc legP [(k, 1)]) (legSDs N j) by rw [← legP_lc], legSDs_lc hj, legForm_lc 1 _ legI_one]
    simp only [List.map_cons, List.map_nil, List.sum_cons, List.sum_nil, legC1, diagsEntry_lit_cons, diagsEntry_lit_nil]
    lentry_cases k j

/-- **C56** `CSDLmat`, `((SD, 1), (L, 0))`. -/
theorem C56_leg_CSDL (N : ℕ) :
    IsMatrixOf (LegMat.CSDL false N) (N-2) N fun k j => legForm 1 0 1 (legSD N k) (legP j) := by
  simp only [LegMat.CSDL, if_false, if_true, Bool.false_eq_true]
  constructor
  · lens_lit
  · intro k hk j hj
    show _ = legForm 1 0 1 (legSD N k) (legP j)
    rw [DMat.mat, denseAt_new _ _ _ _ _ hk hj, legForm_comm, show legForm 0 1 1 (legP j) (legSD N k) = legForm 0 1 1 (lc legP [(j, 1)]) (legSD N k) by rw [← legP_lc], legSD_lc hk, legForm_lc 1 _ legI_one]
    simp only [List.map_cons, List.map_nil, List.sum_cons, List.sum_nil, legC1, diagsEntry_lit_cons, diagsEntry_lit_nil]
    lentry_cases k j

/-- **C56** `CSDLmat`, scaled. -/
theorem C56_leg_CSDL_scaled (N : ℕ) :
    IsMatrixOf (LegMat.CSDL true N) (N-2) N fun k j => legForm 1 0 1 (legSDs N k) (legP j) := by
  simp only [LegMat.CSDL, if_false, if_true, Bool.false_eq_true]
  constructor
  · lens_lit
  · intro k hk j hj
    show _ = legForm 1 0 1 (legSDs N k) (legP j)
    have s1 := sq_ne k
    have s2 := sq_ne j
    rw [DMat.mat, denseAt_new _ _ _ _ _ hk hj, legForm_comm, show legForm 0 1 1 (legP j) (legSDs N k) = legForm 0 1 1 (lc legP [(j, 1)]) (legSDs N k) by rw [← legP_lc], legSDs_lc hk, legForm_lc 1 _ legI_one]
    simp only [List.map_cons, List.map_nil, List.sum_cons, List.sum_nil, legC1, diagsEntry_lit_cons, diagsEntry_lit_nil]
    lentry_cases k j

/-- **C56** `CSDSDmat`, `((SD, 0), (SD, 1))`. -/
theorem C56_leg_CSDSD (N : ℕ) :
    IsMatrixOf (LegMat.CSDSD false N) (N-2) (N-2) fun k j => legForm 0 1 1 (legSD N k) (legSD N j) := by
  simp only [LegMat.CSDSD, if_false, if_true, Bool.false_eq_true]
  constructor
  · lens_lit
  · intro k hk j hj
    show _ = legForm 0 1 1 (legSD N k) (legSD N j)
    rw [DMat.mat, denseAt_new _ _ _ _ _ hk hj, legSD_lc hk, legSD_lc hj, legForm_lc 1 _ legI_one]
    simp only [List.map_cons, List.map_nil, List.sum_cons, List.sum_nil, legC1, diagsEntry_lit_cons, diagsEntry_lit_nil]
    lentry_cases k j

/-- **C56** `CSDSDTmat`. -/
theorem C56_leg_CSDSDT (N : ℕ) :
    IsMatrixOf (LegMat.CSDSDT false N) (N-2) (N-2) fun k j => legForm 1 0 1 (legSD N k) (legSD N j) := by
  simp only [LegMat.CSDSDT, if_false, if_true, Bool.false_eq_true]
  constructor
  · lens_lit
  · intro k hk j hj
    show _ = legForm 1 0 1 (legSD N k) (legSD N j)
    rw [DMat.mat, denseAt_new _ _ _ _ _ hk hj, legForm_comm, legSD_lc hj, legSD_lc hk, legForm_lc 1 _ legI_one]
    simp only [List.map_cons, List.map_nil, List.sum_cons, List.sum_nil, legC1, diagsEntry_lit_cons, diagsEntry_lit_nil]
    lentry_cases k j

/-- `CSDSDmat`, transposed. -/
theorem leg_CSDSD_neg (N : ℕ) :
    IsMatrixOf (LegMat.CSDSD false N) (N-2) (N-2) fun k j => -legForm 1 0 1 (legSD N k) (legSD N j) := by
  simp only [LegMat.CSDSD, if_false, if_true, Bool.false_eq_true]
  constructor
  · lens_lit
  · intro k hk j hj
    show _ = -legForm 1 0 1 (legSD N k) (legSD N j)
    rw [DMat.mat, denseAt_new _ _ _ _ _ hk hj, legForm_comm, legSD_lc hj, legSD_lc hk, legForm_lc 1 _ legI_one]
    simp only [List.map_cons, List.map_nil, List.sum_cons, List.sum_nil, legC1, diagsEntry_lit_cons, diagsEntry_lit_nil]
    lentry_cases k j

/-- `ASDSDmat`. -/
theorem leg_ASDSD_neg (N : ℕ) :
    IsMatrixOf (LegMat.ASDSD false N) (N-2) (N-2) fun k j => -legForm 0 2 1 (legSD N k) (legSD N j) := by
  simp only [LegMat.ASDSD, if_false, if_true, Bool.false_eq_true]
  constructor
  · lens_lit
  · intro k hk j hj
    show _ = -legForm 0 2 1 (legSD N k) (legSD N j)
    rw [DMat.mat, denseAt_new _ _ _ _ _ hk hj, legSD_lc hk, legSD_lc hj, legForm_lc 2 _ legI_two]
    simp only [List.map_cons, List.map_nil, List.sum_cons, List.sum_nil, legC2, diagsEntry_lit_cons, diagsEntry_lit_nil]
    lentry_cases k j

/-- `ASNSNmat`. -/
theorem leg_ASNSN_neg (N : ℕ) :
    IsMatrixOf (LegMat.ASNSN N) (N-2) (N-2) fun k j => -legForm 0 2 1 (legSN N k) (legSN N j) := by
  simp only [LegMat.ASNSN, if_false, if_true, Bool.false_eq_true]
  constructor
  · lens_lit
  · intro k hk j hj
    show _ = -legForm 0 2 1 (legSN N k) (legSN N j)
    rw [DMat.mat, denseAt_new _ _ _ _ _ hk hj, legSN_lc hk, legSN_lc hj, legForm_lc 2 _ legI_two]
    simp only [List.map_cons, List.map_nil, List.sum_cons, List.sum_nil, legC2, diagsEntry_lit_cons, diagsEntry_lit_nil]
    lentry_cases k j

/-- `ASBSBmat`. -/
theorem leg_ASBSB_neg (N : ℕ) :
    IsMatrixOf (LegMat.ASBSB N) (N-4) (N-4) fun k j => -legForm 0 2 1 (legSB N k) (legSB N j) := by
  simp only [LegMat.ASBSB, if_false, if_true, Bool.false_eq_true]
  constructor
  · lens_lit
  · intro k hk j hj
    show _ = -legForm 0 2 1 (legSB N k) (legSB N j)
    rw [DMat.mat, denseAt_new _ _ _ _ _ hk hj, legSB_lc hk, legSB_lc hj, legForm_lc 2 _ legI_two]
    simp only [List.map_cons, List.map_nil, List.sum_cons, List.sum_nil, legC2, diagsEntry_lit_cons, diagsEntry_lit_nil]
    lentry_cases k j

/-- `ADNDNmat`. -/
theorem leg_ADNDN_neg (N : ℕ) :
    IsMatrixOf (LegMat.ADNDN N) (N-2) (N-2) fun k j => -legForm 0 2 1 (legDN N k) (legDN N j) := by
  simp only [LegMat.ADNDN, if_false, if_true, Bool.false_eq_true]
  constructor
  · lens_lit
  · intro k hk j hj
    show _ = -legForm 0 2 1 (legDN N k) (legDN N j)
    rw [DMat.mat, denseAt_new _ _ _ _ _ hk hj, legDN_lc hk, legDN_lc hj, legForm_lc 2 _ legI_two]
    simp only [List.map_cons, List.map_nil, List.sum_cons, List.sum_nil, legC2, diagsEntry_lit_cons, diagsEntry_lit_nil]
    lentry_cases k j

set_option maxHeartbeats 2000000 in
/-- `SSBSBmat`. -/
theorem leg_SSBSB_04 (tN uN : ℕ) :
    IsMatrixOf (LegMat.SSBSB tN uN) (tN-4) (uN-4) fun k j => legForm 0 4 1 (legSB tN k) (legSB uN j) := by
  simp only [LegMat.SSBSB, if_false, if_true, Bool.false_eq_true]
  constructor
  · lens_lit
  · intro k hk j hj
    show _ = legForm 0 4 1 (legSB tN k) (legSB uN j)
    rw [DMat.mat, denseAt_new _ _ _ _ _ hk hj, legSB_lc hk, legSB_lc hj, legForm_lc 4 _ legI_four]
    simp only [List.map_cons, List.map_nil, List.sum_cons, List.sum_nil, legC4, diagsEntry_lit_cons, diagsEntry_lit_nil]
    lentry_cases k j

theorem legSDs_eq {N k : ℕ} (hk : k < N - 2) : legSDs N k = C (1 / LegMat.sq k) * legSD N k := by
  rw [legSDs_lc hk, legSD_lc hk]
  simp only [lc, List.map_cons, List.map_nil, List.sum_cons, List.sum_nil, mul_add, ← mul_assoc, ← C_mul]
  simp [neg_div]

theorem legForm_C_mul (m n : ℕ) (w v u : ℝ[X]) (a b : ℝ) :
    legForm m n w (C a * v) (C b * u) = a * b * legForm m n w v u := by
  rw [legForm_eq, legForm_eq, iterate_derivative_C_mul, iterate_derivative_C_mul,
    show w * (C a * derivative^[m] v * (C b * derivative^[n] u)) = C (a * b) * (w * (derivative^[m] v * derivative^[n] u)) by
      rw [C_mul]; ring, map_C_mul]

/-- Vanishing at both ends. -/
theorem legSD_bc {N i : ℕ} (hi : i < N - 2) : (legSD N i).eval 1 = 0 ∧ (legSD N i).eval (-1) = 0 :=
  ⟨C27_leg_ShenDirichlet N i hi (.right, 0) (by simp [both]), C27_leg_ShenDirichlet N i hi (.left, 0) (by simp [both])⟩

theorem legSN_bc {N i : ℕ} (hi : i < N - 2) :
    (derivative^[1] (legSN N i)).eval 1 = 0 ∧ (derivative^[1] (legSN N i)).eval (-1) = 0 :=
  ⟨C27_leg_ShenNeumann N i hi (.right, 1) (by simp), C27_leg_ShenNeumann N i hi (.left, 1) (by simp)⟩

theorem legSB_bc {N i : ℕ} (hi : i < N - 4) (r : ℕ) (hr : r < 2) :
    (derivative^[r] (legSB N i)).eval 1 = 0 ∧ (derivative^[r] (legSB N i)).eval (-1) = 0 :=
  ⟨C27_leg_ShenBiharmonic N i hi (.right, r) (by simp [both]; omega),
   C27_leg_ShenBiharmonic N i hi (.left, r) (by simp [both]; omega)⟩

theorem legDN_bc {N i : ℕ} (hi : i < N - 2) :
    (derivative^[1] (legDN N i)).eval 1 = 0 ∧ (derivative^[0] (legDN N i)).eval (-1) = 0 :=
  ⟨C27_leg_DirichletNeumann N i hi (.right, 1) (by simp), C27_leg_DirichletNeumann N i hi (.left, 0) (by simp)⟩

theorem legBF_bc {N i : ℕ} (hi : i < N - 4) :
    (derivative^[2] (legBF N i)).eval 1 = 0 ∧ (derivative^[3] (legBF N i)).eval 1 = 0 ∧
    (derivative^[0] (legBF N i)).eval (-1) = 0 ∧ (derivative^[1] (legBF N i)).eval (-1) = 0 :=
  ⟨C27_leg_BeamFixedFree N i hi (.right, 2) (by simp), C27_leg_BeamFixedFree N i hi (.right, 3) (by simp),
   C27_leg_BeamFixedFree N i hi (.left, 0) (by simp), C27_leg_BeamFixedFree N i hi (.left, 1) (by simp)⟩

theorem leg_SD_11 {N k j : ℕ} (hk : k < N-2) (hj : j < N-2) :
    legForm 1 1 1 (legSD N k) (legSD N j) = -legForm 0 2 1 (legSD N k) (legSD N j) :=
  legForm_parts 0 1 _ _ (Or.inl (legSD_bc hk).1) (Or.inl (legSD_bc hk).2)

/-- **C56** `ASDSDmat`, `((SD, 1), (SD, 1))`. -/
theorem C56_leg_ASDSD (N : ℕ) : IsMatrixOf (LegMat.ASDSD false N) (N-2) (N-2) fun k j => legForm 1 1 1 (legSD N k) (legSD N j) :=
  (leg_ASDSD_neg N).congr fun _ hk _ hj => leg_SD_11 hk hj

/-- **C56** `ASDSDmat` with `scale=-1`, `((SD, 0), (SD, 2))`. -/
theorem C56_leg_ASDSD_02 (N : ℕ) :
    IsScaledMatrixOf (-1) (LegMat.ASDSD false N) (N-2) (N-2) fun k j => legForm 0 2 1 (legSD N k) (legSD N j) :=
  ((leg_ASDSD_neg N).scaled (-1)).congr fun _ _ _ _ => by ring

/-- **C56** `ASDSDmat` with `scale=-1`, `((SD, 2), (SD, 0))`. -/
theorem C56_leg_ASDSD_20 (N : ℕ) :
    IsScaledMatrixOf (-1) (LegMat.ASDSD false N) (N-2) (N-2) fun k j => legForm 2 0 1 (legSD N k) (legSD N j) :=
  ((C56_leg_ASDSD N).scaled (-1)).congr fun k hk j hj => by
    rw [legForm_comm 2 0, legForm_comm 1 1, leg_SD_11 hj hk]; ring

theorem leg_SN_11 {N k j : ℕ} (hk : k < N-2) (hj : j < N-2) :
    legForm 1 1 1 (legSN N k) (legSN N j) = -legForm 0 2 1 (legSN N k) (legSN N j) :=
  legForm_parts 0 1 _ _ (Or.inr (legSN_bc hj).1) (Or.inr (legSN_bc hj).2)

/-- **C56** `ASNSNmat`, `((SN, 1), (SN, 1))`. -/
theorem C56_leg_ASNSN (N : ℕ) : IsMatrixOf (LegMat.ASNSN N) (N-2) (N-2) fun k j => legForm 1 1 1 (legSN N k) (legSN N j) :=
  (leg_ASNSN_neg N).congr fun _ hk _ hj => leg_SN_11 hk hj

/-- **C56** `ASNSNmat` with `scale=-1`, `((SN, 0), (SN, 2))`. -/
theorem C56_leg_ASNSN_02 (N : ℕ) :
    IsScaledMatrixOf (-1) (LegMat.ASNSN N) (N-2) (N-2) fun k j => legForm 0 2 1 (legSN N k) (legSN N j) :=
  ((leg_ASNSN_neg N).scaled (-1)).congr fun _ _ _ _ => by ring

/-- **C56** `ASNSNmat` with `scale=-1`, `((SN, 2), (SN, 0))`. -/
theorem C56_leg_ASNSN_20 (N : ℕ) :
    IsScaledMatrixOf (-1) (LegMat.ASNSN N) (N-2) (N-2) fun k j => legForm 2 0 1 (legSN N k) (legSN N j) :=
  ((C56_leg_ASNSN N).scaled (-1)).congr fun k hk j hj => by
    rw [legForm_comm 2 0, legForm_comm 1 1, leg_SN_11 hj hk]; ring

theorem leg_SB_11 {N k j : ℕ} (hk : k < N-4) (hj : j < N-4) :
    legForm 1 1 1 (legSB N k) (legSB N j) = -legForm 0 2 1 (legSB N k) (legSB N j) :=
  legForm_parts 0 1 _ _ (Or.inl (legSB_bc hk 0 (by norm_num)).1) (Or.inl (legSB_bc hk 0 (by norm_num)).2)

/-- **C56** `ASBSBmat`, `((SB, 1), (SB, 1))`. -/
theorem C56_leg_ASBSB (N : ℕ) : IsMatrixOf (LegMat.ASBSB N) (N-4) (N-4) fun k j => legForm 1 1 1 (legSB N k) (legSB N j) :=
  (leg_ASBSB_neg N).congr fun _ hk _ hj => leg_SB_11 hk hj

/-- **C56** `ASBSBmat` with `scale=-1`, `((SB, 0), (SB, 2))`. -/
theorem C56_leg_ASBSB_02 (N : ℕ) :
    IsScaledMatrixOf (-1) (LegMat.ASBSB N) (N-4) (N-4) fun k j => legForm 0 2 1 (legSB N k) (legSB N j) :=
  ((leg_ASBSB_neg N).scaled (-1)).congr fun _ _ _ _ => by ring

/-- **C56** `ASBSBmat` with `scale=-1`, `((SB, 2), (SB, 0))`. -/
theorem C56_leg_ASBSB_20 (N : ℕ) :
    IsScaledMatrixOf (-1) (LegMat.ASBSB N) (N-4) (N-4) fun k j => legForm 2 0 1 (legSB N k) (legSB N j) :=
  ((C56_leg_ASBSB N).scaled (-1)).congr fun k hk j hj => by
    rw [legForm_comm 2 0, legForm_comm 1 1, leg_SB_11 hj hk]; ring

theorem leg_DN_11 {N k j : ℕ} (hk : k < N-2) (hj : j < N-2) :
    legForm 1 1 1 (legDN N k) (legDN N j) = -legForm 0 2 1 (legDN N k) (legDN N j) :=
  legForm_parts 0 1 _ _ (Or.inr (legDN_bc hj).1) (Or.inl (legDN_bc hk).2)

/-- **C56** `ADNDNmat`, `((DN, 1), (DN, 1))`. -/
theorem C56_leg_ADNDN (N : ℕ) : IsMatrixOf (LegMat.ADNDN N) (N-2) (N-2) fun k j => legForm 1 1 1 (legDN N k) (legDN N j) :=
  (leg_ADNDN_neg N).congr fun _ hk _ hj => leg_DN_11 hk hj

/-- **C56** `ADNDNmat` with `scale=-1`, `((DN, 0), (DN, 2))`. -/
theorem C56_leg_ADNDN_02 (N : ℕ) :
    IsScaledMatrixOf (-1) (LegMat.ADNDN N) (N-2) (N-2) fun k j => legForm 0 2 1 (legDN N k) (legDN N j) :=
  ((leg_ADNDN_neg N).scaled (-1)).congr fun _ _ _ _ => by ring

/-- **C56** `ADNDNmat` with `scale=-1`, `((DN, 2), (DN, 0))`. -/
theorem C56_leg_ADNDN_20 (N : ℕ) :
    IsScaledMatrixOf (-1) (LegMat.ADNDN N) (N-2) (N-2) fun k j => legForm 2 0 1 (legDN N k) (legDN N j) :=
  ((C56_leg_ADNDN N).scaled (-1)).congr fun k hk j hj => by
    rw [legForm_comm 2 0, legForm_comm 1 1, leg_DN_11 hj hk]; ring

/-- **C56** `CSDSDmat` with `scale=-1`, `((SD, 1), (SD, 0))`. -/
theorem C56_leg_CSDSD_10 (N : ℕ) :
    IsScaledMatrixOf (-1) (LegMat.CSDSD false N) (N-2) (N-2) fun k j => legForm 1 0 1 (legSD N k) (legSD N j) :=
  ((leg_CSDSD_neg N).scaled (-1)).congr fun _ _ _ _ => by ring

/-- **C56** `ASDSDmat`, scaled. -/
theorem C56_leg_ASDSD_scaled (N : ℕ) :
    IsMatrixOf (LegMat.ASDSD true N) (N-2) (N-2) fun k j => legForm 1 1 1 (legSDs N k) (legSDs N j) := by
  have h := (C56_leg_ASDSD N).entries
  simp only [LegMat.ASDSD, if_false, if_true, Bool.false_eq_true] at h ⊢
  constructor
  · lens_lit
  · intro k hk j hj
    have h1 := h k hk j hj
    rw [DMat.mat, denseAt_new _ _ _ _ _ hk hj] at h1 ⊢
    show _ = legForm 1 1 1 (legSDs N k) (legSDs N j)
    rw [legSDs_eq hk, legSDs_eq hj, legForm_C_mul, ← h1]
    simp only [List.map_cons, List.map_nil, diagsEntry_lit_cons, diagsEntry_lit_nil, DVal.get]
    by_cases hkj : k = j
    · subst hkj
      have := sq_ne k
      simp only [le_refl, if_true, add_zero, ← sq_mul_sq]
      field_simp
    · rw [if_neg (by omega), if_neg (by omega)]
      ring

theorem leg_SB_22 {tN uN k j : ℕ} (hk : k < tN - 4) (hj : j < uN - 4) :
    legForm 2 2 1 (legSB tN k) (legSB uN j) = legForm 0 4 1 (legSB tN k) (legSB uN j) := by
  rw [legForm_parts 1 2 _ _ (Or.inl (legSB_bc hk 1 (by norm_num)).1) (Or.inl (legSB_bc hk 1 (by norm_num)).2),
    legForm_parts 0 3 _ _ (Or.inl (legSB_bc hk 0 (by norm_num)).1) (Or.inl (legSB_bc hk 0 (by norm_num)).2), neg_neg]

/-- **C56** `SSBSBmat`, `((SB, 0), (SB, 4))`. -/
theorem C56_leg_SSBSB_04 (tN uN : ℕ) :
    IsMatrixOf (LegMat.SSBSB tN uN) (tN-4) (uN-4) fun k j => legForm 0 4 1 (legSB tN k) (legSB uN j) := leg_SSBSB_04 tN uN

/-- **C56** `SSBSBmat`, `((SB, 2), (SB, 2))`. -/
theorem C56_leg_SSBSB (tN uN : ℕ) :
    IsMatrixOf (LegMat.SSBSB tN uN) (tN-4) (uN-4) fun k j => legForm 2 2 1 (legSB tN k) (legSB uN j) :=
  (leg_SSBSB_04 tN uN).congr fun _ hk _ hj => leg_SB_22 hk hj

/-- **C56** `SSBSBmat`, `((SB, 4), (SB, 0))`. -/
theorem C56_leg_SSBSB_40 (tN uN : ℕ) :
    IsMatrixOf (LegMat.SSBSB tN uN) (tN-4) (uN-4) fun k j => legForm 4 0 1 (legSB tN k) (legSB uN j) :=
  (C56_leg_SSBSB tN uN).congr fun _ hk _ hj => by rw [legForm_comm 4 0, legForm_comm 2 2, leg_SB_22 hj hk]

theorem leg_BF_22 {N k j : ℕ} (hk : k < N - 4) (hj : j < N - 4) :
    legForm 2 2 1 (legBF N k) (legBF N j) = legForm 0 4 1 (legBF N k) (legBF N j) := by
  rw [legForm_parts 1 2 _ _ (Or.inr (legBF_bc hj).1) (Or.inl (legBF_bc hk).2.2.2),
    legForm_parts 0 3 _ _ (Or.inr (legBF_bc hj).2.1) (Or.inl (legBF_bc hk).2.2.1), neg_neg]

set_option maxHeartbeats 4000000 in
theorem leg_BF_04 {N j s : ℕ} (hk : j + s < N - 4) (hj : j < N - 4) :
    legForm 0 4 1 (legBF N (j + s)) (legBF N j) = diagsEntry ((LegMat.SBFBF N).map fun e => (e.1, e.2.get)) (j + s) j := by
  rw [legBF_lc hk, legBF_lc hj, legForm_lc 4 _ legI_four]
  simp only [LegMat.SBFBF, List.map_cons, List.map_nil, List.sum_cons, List.sum_nil, legC4, diagsEntry_lit_cons, diagsEntry_lit_nil]
  rcases s with _ | _ | _ | _ | _ | s
  all_goals lentry_close

/-- **C56** `SBFBFmat`, `((BF, 2), (BF, 2))`. -/
theorem C56_leg_SBFBF (N : ℕ) :
    IsMatrixOf (LegMat.SBFBF N) (N-4) (N-4) fun k j => legForm 2 2 1 (legBF N k) (legBF N j) := by
  constructor
  · simp only [LegMat.SBFBF]
    lens_lit
  · intro k hk j hj
    rw [DMat.mat, denseAt_new _ _ _ _ _ hk hj]
    show _ = legForm 2 2 1 (legBF N k) (legBF N j)
    rcases le_total j k with h | h
    · obtain ⟨s, rfl⟩ := Nat.exists_eq_add_of_le h
      rw [leg_BF_22 hk hj, leg_BF_04 hk hj]
    · obtain ⟨s, rfl⟩ := Nat.exists_eq_add_of_le h
      rw [legForm_comm, leg_BF_22 hj hk, leg_BF_04 hj hk]
      simp only [LegMat.SBFBF, List.map_cons, List.map_nil, diagsEntry_lit_cons, diagsEntry_lit_nil]
      rcases s with _ | s
      · rfl
      · ifs

/-- **C56** `SBFBFmat`, `((BF, 0), (BF, 4))`. -/
theorem C56_leg_SBFBF_04 (N : ℕ) :
    IsMatrixOf (LegMat.SBFBF N) (N-4) (N-4) fun k j => legForm 0 4 1 (legBF N k) (legBF N j) :=
  (C56_leg_SBFBF N).congr fun _ hk _ hj => (leg_BF_22 hk hj).symm

/-- **C56** `SBFBFmat`, `((BF, 4), (BF, 0))`. -/
theorem C56_leg_SBFBF_40 (N : ℕ) :
    IsMatrixOf (LegMat.SBFBF N) (N-4) (N-4) fun k j => legForm 4 0 1 (legBF N k) (legBF N j) :=
  (C56_leg_SBFBF N).congr fun _ hk _ hj => by rw [legForm_comm 4 0, legForm_comm 2 2, leg_BF_22 hj hk]

end Shenfun
