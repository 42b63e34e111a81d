import Verif.Lemmas.Hepta
import Verif.Lemmas.FDMA
import Mathlib.Tactic.NormNum

/-!
# C01 – C08: the banded direct solvers solve the linear system they are given

Every theorem has the same shape: for every field `K`, every size `n` the code supports, every storage
`data` of the diagonals whose matrix can be eliminated without pivoting, and every right hand side `b`,
running the factorisation and then the two sweeps of the code gives *the* solution of the dense system
`A x = b` (`Spec.Solves`), and entries at positions `≥ n` of the array are left alone.

The condition `Spec.Eliminable` is necessary as well: the pivots the code divides by are all non-zero
exactly when it holds (`*_pivots_iff`).
-/

namespace Shenfun

variable {K : Type*} [Field K]

/-- What is claimed about a solution `x` computed for `A x = b`. -/
def Spec.IsTheSolution (n : ℕ) (A : ℕ → ℕ → K) (b x : ℕ → K) : Prop :=
  Spec.Solves n A x b ∧ (∀ x', Spec.Solves n A x' b → ∀ i < n, x' i = x i) ∧ ∀ i, n ≤ i → x i = b i

theorem eliminable_of_witness {n : ℕ} {A L U : ℕ → ℕ → K} (hlu : IsLU n L U)
    (h : ∀ i < n, ∀ j < n, A i j = ∑ m ∈ Finset.range n, L i m * U m j) (hp : ∀ i < n, U i i ≠ 0) :
    Spec.Eliminable n A :=
  minors_of_pivots hlu (fun i hi j hj _ => h i hi j hj) hp

theorem isTheSolution_of_LU {n : ℕ} {A L U : ℕ → ℕ → K} (hlu : IsLU n L U) (hA : LURel n A L U)
    (he : Spec.Eliminable n A) {x y b : ℕ → K}
    (hL : ∀ i < n, Spec.mulVec n L y i = b i)
    (hU : (∀ i < n, U i i ≠ 0) → ∀ i < n, Spec.mulVec n U x i = y i)
    (hge : ∀ i, n ≤ i → x i = b i) : Spec.IsTheSolution n A b x := by
  have hp := pivots_of_minors hlu hA he
  have hs := solves_of_LU hA hp hL (hU hp)
  exact ⟨hs, fun x' h' i hi => unique_of_LU hlu hA hp h' hs i hi, hge⟩

theorem backSub_diag {d e f g h : ℕ → K} {n : ℕ}
    (hp : ∀ i < n, bandU 2 4 6 8 d e f g h i i ≠ 0) : ∀ i < n, d i ≠ 0 := by
  intro i hi
  have := hp i hi
  rwa [bandU_diag _ _ _ _ _ _ _ _ _ (by omega) (by omega) (by omega) (by omega)] at this

/-- Common end of the proofs: forward then backward substitution with the stored factors. -/
theorem isTheSolution_sweeps {n : ℕ} {A : ℕ → ℕ → K} {l1 l2 d e f g h : ℕ → K}
    (hA : LURel n A (bandL 2 4 l1 l2) (bandU 2 4 6 8 d e f g h)) (he : Spec.Eliminable n A) (b : ℕ → K) :
    Spec.IsTheSolution n A b (backSub n d e f g h (fwdSub n l1 l2 b)) := by
  have hlu := isLU_band (K := K) n 2 4 2 4 6 8 l1 l2 d e f g h (by omega) (by omega)
  refine isTheSolution_of_LU hlu hA he (fwdSub_spec n l1 l2 b).1
    (fun hp => (backSub_spec n d e f g h (backSub_diag hp) _).1) (fun i hi => ?_)
  have hp := backSub_diag (pivots_of_minors hlu hA he)
  rw [(backSub_spec n d e f g h hp _).2 i hi, fwdSub_ge n l1 l2 b i hi]

theorem pivots_iff_band {n c : ℕ} (hc : 0 < c) {A : ℕ → ℕ → K} {l1 l2 d e f g h : ℕ → K}
    (hA : LURel n A (bandL c 4 l1 l2) (bandU c 4 6 8 d e f g h)) :
    Spec.Eliminable n A ↔ ∀ i < n, d i ≠ 0 := by
  have hlu := isLU_band (K := K) n c 4 c 4 6 8 l1 l2 d e f g h hc (by omega)
  have hd : ∀ i, bandU c 4 6 8 d e f g h i i = d i :=
    bandU_diag _ _ _ _ _ _ _ _ _ hc (by omega) (by omega) (by omega)
  constructor
  · intro he i hi
    have := pivots_of_minors hlu hA he i hi
    rwa [hd] at this
  · intro hp
    exact minors_of_pivots hlu hA fun i hi => by rw [hd]; exact hp i hi

/-! ## C01 TDMA -/

theorem C01_tdma_solves (n : ℕ) (hn : 2 ≤ n) (data : Dia K)
    (he : Spec.Eliminable n (Spec.diaEntry [-2, 0, 2] data)) (b : ℕ → K) :
    Spec.IsTheSolution n (Spec.diaEntry [-2, 0, 2] data) b
      (TDMA.innerSolve n (TDMA.lu n data) b) := by
  rw [TDMA.innerSolve_eq n hn]
  exact isTheSolution_sweeps (TDMA.luRel n data) he b

/-- The divisors used by the code are non-zero exactly when the matrix is eliminable. -/
theorem C01_tdma_pivots_iff (n : ℕ) (data : Dia K) :
    Spec.Eliminable n (Spec.diaEntry [-2, 0, 2] data) ↔ ∀ i < n, TDMA.lu n data 1 i ≠ 0 :=
  pivots_iff_band (by omega) (TDMA.luRel n data)

example : Spec.Eliminable 5 (Spec.diaEntry [-2, 0, 2]
    (fun r j => if r = 1 then (if j < 2 then 1 else 2) else (1:ℚ))) := by
  refine eliminable_of_witness (isLU_band 5 2 4 2 4 6 8 (fun _ => 1) (fun _ => 0) (fun _ => 1) (fun _ => 1)
    (fun _ => 0) (fun _ => 0) (fun _ => 0) (by omega) (by omega)) ?_ ?_ <;> decide +kernel

/-- The size `n = 1` is outside the theorem for a reason: `u[n-1]` and `u[n-2]` are then the same entry
(Python index `-1`) and it is divided twice. -/
theorem C01_tdma_size_one (data : Dia K) (b : ℕ → K) :
    TDMA.innerSolve 1 (TDMA.lu 1 data) b 0 = b 0 / data 1 0 / data 1 0 := by
  simp [TDMA.innerSolve, TDMA.lu, forN, pyIdx]

/-! ## C02 TDMA_O -/

theorem C02_tdmaO_solves (n : ℕ) (hn : 1 ≤ n) (data : Dia K)
    (he : Spec.Eliminable n (Spec.diaEntry [-1, 0, 1] data)) (b : ℕ → K) :
    Spec.IsTheSolution n (Spec.diaEntry [-1, 0, 1] data) b
      (TDMAO.innerSolve n (TDMAO.lu n data) b) := by
  have hlu := isLU_band (K := K) n 1 4 1 4 6 8 (TDMAO.lu n data 0) (fun _ => 0) (TDMAO.lu n data 1)
    (TDMAO.lu n data 2) (fun _ => 0) (fun _ => 0) (fun _ => 0) (by omega) (by omega)
  have hp : ∀ i < n, TDMAO.lu n data 1 i ≠ 0 :=
    (pivots_iff_band (by omega) (TDMAO.luRel n data)).1 he
  obtain ⟨y, h1, h2⟩ := TDMAO.solve_factors n hn (TDMAO.lu n data) hp b
  obtain ⟨_, _, _, h3⟩ := TDMAO.innerSolve_spec n hn (TDMAO.lu n data) b
  exact isTheSolution_of_LU hlu (TDMAO.luRel n data) he h1 (fun _ => h2) h3

theorem C02_tdmaO_pivots_iff (n : ℕ) (data : Dia K) :
    Spec.Eliminable n (Spec.diaEntry [-1, 0, 1] data) ↔ ∀ i < n, TDMAO.lu n data 1 i ≠ 0 :=
  pivots_iff_band (by omega) (TDMAO.luRel n data)

example : Spec.Eliminable 5 (Spec.diaEntry [-1, 0, 1]
    (fun r j => if r = 1 then (if j < 1 then 1 else 2) else (1:ℚ))) := by
  refine eliminable_of_witness (isLU_band 5 1 4 1 4 6 8 (fun _ => 1) (fun _ => 0) (fun _ => 1) (fun _ => 1)
    (fun _ => 0) (fun _ => 0) (fun _ => 0) (by omega) (by omega)) ?_ ?_ <;> decide +kernel

/-! ## C03 PDMA -/

theorem C03_pdma_solves (n : ℕ) (hn : 4 ≤ n) (data : Dia K)
    (he : Spec.Eliminable n (Spec.diaEntry [-4, -2, 0, 2, 4] data)) (b : ℕ → K) :
    Spec.IsTheSolution n (Spec.diaEntry [-4, -2, 0, 2, 4] data) b
      (PDMA.innerSolve n (PDMA.lu n data) b) := by
  rw [PDMA.innerSolve_eq n hn]
  exact isTheSolution_sweeps (PDMA.luRel n hn data) he b

theorem C03_pdma_pivots_iff (n : ℕ) (hn : 4 ≤ n) (data : Dia K) :
    Spec.Eliminable n (Spec.diaEntry [-4, -2, 0, 2, 4] data) ↔ ∀ i < n, PDMA.lu n data 2 i ≠ 0 :=
  pivots_iff_band (by omega) (PDMA.luRel n hn data)

/-- A pentadiagonal test matrix. -/
def exPenta : Dia ℚ := fun r j =>
  if r = 0 then 1 else if r = 1 then (if j < 2 then 1 else 2)
  else if r = 2 then (if j < 2 then 1 else if j < 4 then 2 else 3)
  else if r = 3 then (if j < 4 then 1 else 2) else 1

example : Spec.Eliminable 7 (Spec.diaEntry [-4, -2, 0, 2, 4] exPenta) := by
  refine eliminable_of_witness (isLU_band 7 2 4 2 4 6 8 (fun _ => 1) (fun _ => 1) (fun _ => 1) (fun _ => 1)
    (fun _ => 1) (fun _ => 0) (fun _ => 0) (by omega) (by omega)) ?_ ?_ <;> decide +kernel

/-! ## C04 FDMA -/

theorem C04_fdma_solves (n : ℕ) (hn : 4 ≤ n) (data : Dia K)
    (he : Spec.Eliminable n (Spec.diaEntry [-2, 0, 2, 4] data)) (b : ℕ → K) :
    Spec.IsTheSolution n (Spec.diaEntry [-2, 0, 2, 4] data) b
      (FDMA.innerSolve n (FDMA.lu n data) b) := by
  rw [FDMA.innerSolve_eq n hn]
  exact isTheSolution_sweeps (FDMA.luRel n data) he b

theorem C04_fdma_pivots_iff (n : ℕ) (data : Dia K) :
    Spec.Eliminable n (Spec.diaEntry [-2, 0, 2, 4] data) ↔ ∀ i < n, FDMA.lu n data 1 i ≠ 0 :=
  pivots_iff_band (by omega) (FDMA.luRel n data)

def exFour : Dia ℚ := fun r j =>
  if r = 1 then (if j < 2 then 1 else 2) else if r = 2 then (if j < 4 then 1 else 2) else 1

example : Spec.Eliminable 7 (Spec.diaEntry [-2, 0, 2, 4] exFour) := by
  refine eliminable_of_witness (isLU_band 7 2 4 2 4 6 8 (fun _ => 1) (fun _ => 0) (fun _ => 1) (fun _ => 1)
    (fun _ => 1) (fun _ => 0) (fun _ => 0) (by omega) (by omega)) ?_ ?_ <;> decide +kernel

/-! ## C05 TwoDMA -/

theorem fwdSub_id (n : ℕ) (b : ℕ → K) : fwdSub n (fun _ => 0) (fun _ => 0) b = b := by
  unfold fwdSub
  have : ∀ m, forN (fun k u => Function.update u (2+k) (fwdRow (fun _ => (0:K)) (fun _ => 0) (2+k) u)) b m = b := by
    intro m
    induction m with
    | zero => rfl
    | succ m ih =>
      rw [forN_succ, ih]
      unfold fwdRow
      simp
  exact this _

theorem eliminable_upper_iff {n : ℕ} {A : ℕ → ℕ → K} {d e f g h : ℕ → K}
    (hA : ∀ i j, A i j = bandU 2 4 6 8 d e f g h i j) :
    Spec.Eliminable n A ↔ ∀ i < n, d i ≠ 0 := by
  have : A = bandU 2 4 6 8 d e f g h := by funext i j; exact hA i j
  subst this
  exact pivots_iff_band (c := 2) (by omega) (luRel_upper n _)

theorem isTheSolution_upper {n : ℕ} {A : ℕ → ℕ → K} {d e f g h : ℕ → K}
    (hA : ∀ i j, A i j = bandU 2 4 6 8 d e f g h i j) (hd : ∀ i < n, d i ≠ 0) (b : ℕ → K) :
    Spec.IsTheSolution n A b (backSub n d e f g h b) := by
  have he := (eliminable_upper_iff (n := n) hA).2 hd
  have : A = bandU 2 4 6 8 d e f g h := by funext i j; exact hA i j
  subst this
  have := isTheSolution_sweeps (luRel_upper n _) he b
  rwa [fwdSub_id] at this

/-- For an upper triangular matrix the condition is simply a diagonal without zeros. -/
theorem C05_twoDMA_solves (n : ℕ) (hn : 2 ≤ n) (data : Dia K) (hd : ∀ i < n, data 0 i ≠ 0) (b : ℕ → K) :
    Spec.IsTheSolution n (Spec.diaEntry [0, 2] data) b (TwoDMA.innerSolve n data b) := by
  rw [TwoDMA.innerSolve_eq n hn]
  exact isTheSolution_upper (TwoDMA.entry_eq data) hd b

example : ∀ i < 5, (fun r j => if r = 0 then 2 + (j:ℚ) else 1 : Dia ℚ) 0 i ≠ 0 := by decide +kernel

/-! ## C06 ThreeDMA: refuted as written -/

/-- The full claim for the code as written is false: with diagonals 0, 2, 4 holding different values the
result is not the solution (the second upper diagonal is read from the wrong storage row). -/
theorem C06_threeDMA_refuted :
    ∃ (n : ℕ) (data : Dia ℚ) (b : ℕ → ℚ), 4 ≤ n ∧ (∀ i < n, data 0 i ≠ 0) ∧
      ¬ Spec.Solves n (Spec.diaEntry [0, 2, 4] data) (ThreeDMA.innerSolve n data b) b := by
  refine ⟨5, fun r _ => if r = 2 then 3 else 1, fun _ => 1, by omega, by decide +kernel, ?_⟩
  intro h
  have := h 0 (by omega)
  revert this
  decide +kernel

/-- What is missing for the full claim: the storage rows of the two upper diagonals must agree on
columns `4 ≤ j < n`.  (Full statement: the same without `hagree`.) -/
theorem C06_threeDMA_partial (n : ℕ) (hn : 4 ≤ n) (data : Dia K) (hd : ∀ i < n, data 0 i ≠ 0)
    (hagree : ∀ j, 4 ≤ j → j < n → data 2 j = data 1 j) (b : ℕ → K) :
    Spec.IsTheSolution n (Spec.diaEntry [0, 2, 4] data) b (ThreeDMA.innerSolve n data b) := by
  have key : ThreeDMA.innerSolve n data b =
      backSub n (data 0) (data 1) (data 2) (fun _ => 0) (fun _ => 0) b := by
    unfold ThreeDMA.innerSolve
    rw [ThreeDMA.innerSolveRow_eq 1 n hn]
    unfold backSub
    apply forN_congr
    intro k hk t
    unfold backRow
    by_cases h : n - 1 - k + 4 < n
    · rw [if_pos h, if_pos h, hagree _ (by omega) h]
    · rw [if_neg h, if_neg h]
  rw [key]
  exact isTheSolution_upper (ThreeDMA.entry_eq data) hd b

/-- Reading the second upper diagonal from row 2 (the one-character repair) gives the full claim, so the
row index is the only defect. -/
theorem C06_threeDMA_repaired (n : ℕ) (hn : 4 ≤ n) (data : Dia K) (hd : ∀ i < n, data 0 i ≠ 0) (b : ℕ → K) :
    Spec.IsTheSolution n (Spec.diaEntry [0, 2, 4] data) b (ThreeDMA.innerSolveRow 2 n data b) := by
  rw [ThreeDMA.innerSolveRow_eq 2 n hn]
  exact isTheSolution_upper (ThreeDMA.entry_eq data) hd b

/-- The agreement hypothesis is necessary for a single column: for `n = 5` the code is right for every
right hand side exactly if `data[1,4] = data[2,4]`. -/
theorem C06_threeDMA_five_iff (data : Dia K) (hd : ∀ i < 5, data 0 i ≠ 0) :
    (∀ b, Spec.Solves 5 (Spec.diaEntry [0, 2, 4] data) (ThreeDMA.innerSolve 5 data b) b) ↔
      data 1 4 = data 2 4 := by
  constructor
  · intro h
    have h1 := (isTheSolution_upper (n := 5) (A := bandU 2 4 6 8 (data 0) (data 1) (data 1) (fun _ => 0) (fun _ => 0))
      (fun _ _ => rfl) hd (fun i => if i = 4 then 1 else 0)).1 0 (by omega)
    have h2 := h (fun i => if i = 4 then 1 else 0) 0 (by omega)
    unfold ThreeDMA.innerSolve at h2
    rw [ThreeDMA.innerSolveRow_eq 1 5 (by omega)] at h2
    have h3 := (isTheSolution_upper (n := 5) (A := bandU 2 4 6 8 (data 0) (data 1) (data 1) (fun _ => 0) (fun _ => 0))
      (fun _ _ => rfl) hd (fun i => if i = 4 then 1 else 0)).1 4 (by omega)
    set x := backSub 5 (data 0) (data 1) (data 1) (fun _ => 0) (fun _ => 0) (fun i => if i = 4 then (1:K) else 0)
    unfold Spec.mulVec at h1 h2 h3
    rw [sum_bandU 5 _ _ _ _ _ _ _ _ _ _ (by omega)] at h1 h3
    simp only [ThreeDMA.entry_eq] at h2
    rw [sum_bandU 5 _ _ _ _ _ _ _ _ _ _ (by omega)] at h2
    norm_num at h1 h2 h3
    have hx : x 4 ≠ 0 := fun h0 => by simp [h0] at h3
    have : data 1 4 * x 4 = data 2 4 * x 4 := by linear_combination h1 - h2
    exact mul_right_cancel₀ hx this
  · intro h b
    refine (C06_threeDMA_partial 5 (by omega) data hd (fun j h1 h2 => ?_) b).1
    have : j = 4 := by omega
    rw [this, h]

example : ∃ data : Dia ℚ, (∀ i < 6, data 0 i ≠ 0) ∧ (∀ j, 4 ≤ j → j < 6 → data 2 j = data 1 j) ∧ data 1 2 ≠ data 1 4 :=
  ⟨fun r j => if r = 0 then 2 else j, by decide +kernel, fun j _ _ => by simp, by decide +kernel⟩

/-! ## C07 HeptaDMA -/

theorem C07_heptaDMA_solves (n : ℕ) (hn : 8 ≤ n) (data : Dia K)
    (he : Spec.Eliminable n (Spec.diaEntry [-4, -2, 0, 2, 4, 6, 8] data)) (b : ℕ → K) :
    Spec.IsTheSolution n (Spec.diaEntry [-4, -2, 0, 2, 4, 6, 8] data) b
      (HeptaDMA.innerSolve n (HeptaDMA.lu n data) b) := by
  rw [HeptaDMA.innerSolve_eq n hn]
  exact isTheSolution_sweeps (HeptaDMA.luRel n (by omega) data) he b

theorem C07_heptaDMA_pivots_iff (n : ℕ) (hn : 8 ≤ n) (data : Dia K) :
    Spec.Eliminable n (Spec.diaEntry [-4, -2, 0, 2, 4, 6, 8] data) ↔ ∀ i < n, HeptaDMA.lu n data 2 i ≠ 0 :=
  pivots_iff_band (by omega) (HeptaDMA.luRel n (by omega) data)

def exHepta : Dia ℚ := fun r j =>
  if r = 0 then 1 else if r = 1 then (if j < 2 then 1 else 2)
  else if r = 2 then (if j < 2 then 1 else if j < 4 then 2 else 3)
  else if r = 3 then (if j < 4 then 1 else if j < 6 then 2 else 3)
  else if r = 4 then (if j < 6 then 1 else if j < 8 then 2 else 3)
  else if r = 5 then (if j < 8 then 1 else 2) else 1

example : Spec.Eliminable 10 (Spec.diaEntry [-4, -2, 0, 2, 4, 6, 8] exHepta) := by
  refine eliminable_of_witness (isLU_band 10 2 4 2 4 6 8 (fun _ => 1) (fun _ => 1) (fun _ => 1) (fun _ => 1)
    (fun _ => 1) (fun _ => 1) (fun _ => 1) (by omega) (by omega)) ?_ ?_ <;> decide +kernel

/-! ## C08 DiagMA -/

theorem C08_diagMA_solves (n : ℕ) (data : Dia K) (hd : ∀ i < n, data 0 i ≠ 0) (b : ℕ → K) :
    Spec.IsTheSolution n (Spec.diaEntry [0] data) b (DiagMA.innerSolve n data b) := by
  have hrow : ∀ (u : ℕ → K) (i : ℕ), i < n → Spec.mulVec n (Spec.diaEntry [0] data) u i = data 0 i * u i := by
    intro u i hi
    unfold Spec.mulVec
    simp only [DiagMA.entry_eq]
    rw [sum_bandU n _ _ _ _ _ _ _ _ _ i hi]
    simp
  refine ⟨fun i hi => ?_, fun x' h i hi => ?_, fun i hi => ?_⟩
  · rw [hrow _ i hi, DiagMA.innerSolve, if_pos hi, mul_div_cancel₀ _ (hd i hi)]
  · have := h i hi
    rw [hrow _ i hi] at this
    rw [DiagMA.innerSolve, if_pos hi, ← this, mul_div_cancel_left₀ _ (hd i hi)]
  · rw [DiagMA.innerSolve, if_neg (by omega)]

example : ∀ i < 5, (fun _ j => 2 + (j:ℚ) : Dia ℚ) 0 i ≠ 0 := by decide +kernel

end Shenfun
