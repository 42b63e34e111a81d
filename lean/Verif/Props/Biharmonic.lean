import Verif.Lemmas.Biharmonic
import Verif.Lemmas.ChebCoercive
import Verif.Props.Helmholtz
import Verif.Props.StencilBasis

/-!
# C68: the Chebyshev biharmonic solver
-/

namespace Shenfun

open Polynomial Spec Finset ChebLA

set_option linter.unusedSimpArgs false

/-! ## Entries -/

theorem ssbsb_entry {N i j : ℕ} (hi : i < N - 4) (hj : j < N - 4) :
    chebForm 4 (chebSB N i) (chebSB N j) =
      if j = i then Real.pi * 8 * ((i:ℝ) + 1) ^ 2 * (i + 2) * (i + 4)
      else if i < j ∧ j % 2 = i % 2 then 8 * ((i:ℝ) + 1) * (i + 2) * (i * (i + 4) + 3 * ((j:ℝ) + 2) ^ 2) * Real.pi / (j + 3) else 0 := by
  rw [← (C28_cheb_SSBSB N).entries i hi j hj, DMat.mat, denseAt_new _ _ _ _ _ hi hj, ChebMat.SSBSB, diagsEntry_fromkeys2]
  by_cases h : j = i
  · subst h
    rw [if_pos (by omega), if_pos rfl, if_pos (by omega), if_pos (by omega)]
    rfl
  · rw [if_neg h]
    by_cases h2 : i < j ∧ j % 2 = i % 2
    · rw [if_pos (by omega), if_pos h2, if_neg (by omega)]
      have e : i + ((j:ℤ) - i).toNat = j := by omega
      split_ifs
      · show 8 * ((i:ℝ) + 1) * (i + 2) * (i * (i + 4) + 3 * (((i + ((j:ℤ) - i).toNat : ℕ) : ℝ) + 2) ^ 2) * Real.pi
          / (((i + ((j:ℤ) - i).toNat : ℕ) : ℝ) + 3) = _
        rw [e]
      all_goals omega
    · rw [if_neg (by omega), if_neg h2]

theorem asbsb_entry {N i j : ℕ} (hi : i < N - 4) (hj : j < N - 4) :
    chebForm 2 (chebSB N i) (chebSB N j) =
      if j = i then -4 * (((i:ℝ) + 1) * ((i:ℝ) + 2) ^ 2) / (i + 3) * Real.pi
      else if j = i + 2 then 2 * ((i:ℝ) + 1) * (i + 2) * Real.pi
      else if j + 2 = i then 2 * (((j + 2 : ℕ) : ℝ) - 1) * (((j + 2 : ℕ) : ℝ) + 2) * Real.pi else 0 := by
  rw [← (C28_cheb_ASBSB N).entries i hi j hj, DMat.mat, denseAt_new _ _ _ _ _ hi hj, ChebMat.ASBSB]
  simp only [List.map_cons, List.map_nil, diagsEntry_lit_cons, diagsEntry_lit_nil, DVal.get]
  rcases (by omega : j = i ∨ j = i + 2 ∨ j + 2 = i ∨ (j ≠ i ∧ j ≠ i + 2 ∧ j + 2 ≠ i)) with h | h | h | h
  · subst h; ifs; simp
  · subst h; ifs; simp
  · subst h; ifs; simp
  · ifs; simp

theorem bsbsb_entry {N i j : ℕ} (hi : i < N - 4) (hj : j < N - 4) (h : ℕ → ℝ) (I : ℝ[X] →ₗ[ℝ] ℝ) (hh : ChebNorms N N h)
    (hI : OrthogonalForm chebT I N N h) :
    I (chebSB N i * chebSB N j) =
      if j = i then (ChebMat.BSBSB N N h).at 0 i else if j = i + 2 then (ChebMat.BSBSB N N h).at 2 i
      else if j = i + 4 then (ChebMat.BSBSB N N h).at 4 i else if j + 2 = i then (ChebMat.BSBSB N N h).at (-2) j
      else if j + 4 = i then (ChebMat.BSBSB N N h).at (-4) j else 0 := by
  rw [← (C28_cheb_BSBSB N h I hh hI).entries i hi j hj, DMat.mat, denseAt_new _ _ _ _ _ hi hj]
  unfold DMat.at ChebMat.BSBSB
  simp only [List.map_cons, List.map_nil, diagsEntry_lit_cons, diagsEntry_lit_nil, DVal.get]
  rcases (by omega : j = i ∨ j = i + 2 ∨ j = i + 4 ∨ j + 2 = i ∨ j + 4 = i ∨ (j ≠ i ∧ j ≠ i + 2 ∧ j ≠ i + 4 ∧ j + 2 ≠ i ∧ j + 4 ≠ i))
    with h | h | h | h | h | h
  · subst h; ifs; simp [DVal.get]
  · subst h; ifs; simp [DVal.get]
  · subst h; ifs; simp [DVal.get]
  · subst h; ifs; simp [DVal.get]
  · subst h; ifs; simp [DVal.get]
  · ifs; simp

theorem biharmonicEquation_iff (I : ℝ[X] →ₗ[ℝ] ℝ) (φ : ℕ → ℝ[X]) (n : ℕ) (a α β : ℝ) (x b : ℕ → ℝ) (k : ℕ) :
    BiharmonicEquation I φ n a α β x b k ↔ ∑ j ∈ range n, biharmonicMatrix I φ a α β k j * x j = b k := by
  unfold BiharmonicEquation biharmonicMatrix
  rw [chebForm_sum, chebForm_sum, form_sum, Finset.mul_sum, Finset.mul_sum, Finset.mul_sum, ← Finset.sum_add_distrib, ← Finset.sum_add_distrib]
  rw [Finset.sum_congr rfl fun j _ => show a * (chebForm 4 (φ k) (φ j) * x j) + α * (chebForm 2 (φ k) (φ j) * x j) + β * (I (φ k * φ j) * x j) =
    (a * chebForm 4 (φ k) (φ j) + α * chebForm 2 (φ k) (φ j) + β * I (φ k * φ j)) * x j by ring]

theorem biharmonic_parity (N : ℕ) (h : ℕ → ℝ) (I : ℝ[X] →ₗ[ℝ] ℝ) (hh : ChebNorms N N h) (hI : OrthogonalForm chebT I N N h)
    (a α β : ℝ) (i j : ℕ) (hi : i < N - 4) (hj : j < N - 4) (hij : i % 2 ≠ j % 2) : biharmonicMatrix I (chebSB N) a α β i j = 0 := by
  unfold biharmonicMatrix
  rw [ssbsb_entry hi hj, asbsb_entry hi hj, bsbsb_entry hi hj h I hh hI]
  ifs
  ring

/-- The parity classes of the Galerkin matrix are what the code factors. -/
theorem biharmonic_biMat (N : ℕ) (hN : 9 ≤ N) (h : ℕ → ℝ) (I : ℝ[X] →ₗ[ℝ] ℝ) (hh : ChebNorms N N h) (hI : OrthogonalForm chebT I N N h)
    (a α β : ℝ) (odd i j : ℕ) (hi : 2 * i + odd < N - 4) (hj : 2 * j + odd < N - 4) :
    biharmonicMatrix I (chebSB N) a α β (2 * i + odd) (2 * j + odd) =
      biMat odd a α β ((biDiags (ChebMat.SSBSB N) (ChebMat.ASBSB N) (ChebMat.BSBSB N N h) 1 1 1).half odd) i j := by
  have s0 : (ChebMat.SSBSB N).at 0 = fun t : ℕ => Real.pi * 8 * ((t:ℝ) + 1) ^ 2 * (t + 2) * (t + 4) := by
    funext t; rw [ChebMat.SSBSB, fromkeys2_at _ _ _ _ le_rfl (by omega) (by norm_num)]; rfl
  have s2 : (ChebMat.SSBSB N).at 2 = fun t : ℕ => 8 * ((t:ℝ) + 1) * (t + 2) * (t * (t + 4) + 3 * (((t + 2 : ℕ) : ℝ) + 2) ^ 2) * Real.pi / (((t + 2 : ℕ) : ℝ) + 3) := by
    funext t; rw [ChebMat.SSBSB, fromkeys2_at _ _ _ _ (by norm_num) (by omega) (by norm_num)]; rfl
  have s4 : (ChebMat.SSBSB N).at 4 = fun t : ℕ => 8 * ((t:ℝ) + 1) * (t + 2) * (t * (t + 4) + 3 * (((t + 4 : ℕ) : ℝ) + 2) ^ 2) * Real.pi / (((t + 4 : ℕ) : ℝ) + 3) := by
    funext t; rw [ChebMat.SSBSB, fromkeys2_at _ _ _ _ (by norm_num) (by omega) (by norm_num)]; rfl
  have a0 : (ChebMat.ASBSB N).at 0 = fun t : ℕ => -4 * (((t:ℝ) + 1) * ((t:ℝ) + 2) ^ 2) / (t + 3) * Real.pi := rfl
  have a2 : (ChebMat.ASBSB N).at 2 = fun t : ℕ => 2 * ((t:ℝ) + 1) * (t + 2) * Real.pi := rfl
  have am2 : (ChebMat.ASBSB N).at (-2) = fun t : ℕ => 2 * (((t + 2 : ℕ) : ℝ) - 1) * (((t + 2 : ℕ) : ℝ) + 2) * Real.pi := rfl
  unfold biharmonicMatrix biMat biDiags BiDiags.half
  dsimp only
  rw [ssbsb_entry hi hj, asbsb_entry hi hj, bsbsb_entry hi hj h I hh hI, s0, s2, s4, a0, a2, am2]
  simp only [one_mul]
  rcases (by omega : j = i ∨ j = i + 1 ∨ j = i + 2 ∨ i + 3 ≤ j ∨ j + 1 = i ∨ j + 2 = i ∨ j + 2 < i) with h | h | h | h | h | h | h
  · subst h; ifs
  · subst h
    rw [show 2 * (i + 1) + odd = 2 * i + odd + 2 by omega]
    ifs
  · subst h
    rw [show 2 * (i + 2) + odd = 2 * i + odd + 4 by omega]
    ifs; ring
  · ifs
    unfold biFar
    push_cast
    ring
  · subst h
    rw [show 2 * (j + 1) + odd = 2 * j + odd + 2 by omega]
    ifs; ring
  · subst h
    rw [show 2 * (j + 2) + odd = 2 * j + odd + 4 by omega]
    ifs; ring
  · ifs; ring

/-- A parity class of a matrix without entries between the classes inherits that elimination is possible. -/
theorem eliminable_parity (n M odd : ℕ) (hodd : odd < 2) (hn : 2 * M + odd ≤ n + 1) (A : ℕ → ℕ → ℝ)
    (hpar : ∀ i < n, ∀ j < n, i % 2 ≠ j % 2 → A i j = 0) (hA : Spec.Eliminable n A) :
    Spec.Eliminable M fun i j => A (2 * i + odd) (2 * j + odd) := by
  intro k hk hdet
  rcases Nat.eq_zero_or_pos k with h0 | h0
  · subst h0
    unfold Spec.leadMinor at hdet
    rw [Matrix.det_fin_zero] at hdet
    exact one_ne_zero hdet
  unfold Spec.leadMinor at hdet
  obtain ⟨v, hv, hMv⟩ := Matrix.exists_mulVec_eq_zero_iff.2 hdet
  set m := 2 * k + odd - 1 with hm
  refine hA m (by omega) ?_
  unfold Spec.leadMinor
  refine Matrix.exists_mulVec_eq_zero_iff.1 ⟨fun i => if h : (i:ℕ) % 2 = odd ∧ (i:ℕ) / 2 < k then v ⟨(i:ℕ) / 2, h.2⟩ else 0, ?_, ?_⟩
  · obtain ⟨i₀, hi₀⟩ := Function.ne_iff.1 hv
    refine Function.ne_iff.2 ⟨⟨2 * i₀ + odd, by have := i₀.2; omega⟩, ?_⟩
    have e : ((2 * (i₀:ℕ) + odd) % 2 = odd ∧ (2 * (i₀:ℕ) + odd) / 2 < k) := by have := i₀.2; omega
    show (if h : (2 * (i₀:ℕ) + odd) % 2 = odd ∧ (2 * (i₀:ℕ) + odd) / 2 < k then v ⟨(2 * (i₀:ℕ) + odd) / 2, h.2⟩ else 0) ≠ 0
    rw [dif_pos e]
    have e2 : (⟨(2 * (i₀:ℕ) + odd) / 2, e.2⟩ : Fin k) = i₀ := Fin.ext (by show (2 * (i₀:ℕ) + odd) / 2 = i₀; omega)
    rw [e2]
    exact hi₀
  · set x : ℕ → ℝ := fun i => if h : i % 2 = odd ∧ i / 2 < k then v ⟨i / 2, h.2⟩ else 0 with hx
    funext i
    show ∑ j : Fin m, A i j * x j = 0
    rw [Fin.sum_univ_eq_sum_range (fun j => A i j * x j) m]
    have hxe : ∀ t (ht : t < k), x (2 * t + odd) = v ⟨t, ht⟩ := fun t ht => by
      have e : (2 * t + odd) % 2 = odd ∧ (2 * t + odd) / 2 < k := by omega
      rw [hx]
      show (if h : (2 * t + odd) % 2 = odd ∧ (2 * t + odd) / 2 < k then v ⟨(2 * t + odd) / 2, h.2⟩ else 0) = _
      rw [dif_pos e]
      congr 1
      exact Fin.ext (by show (2 * t + odd) / 2 = t; omega)
    have hx0 : ∀ j, j % 2 ≠ odd → x j = 0 := fun j hj => dif_neg (by omega)
    have himg : ∑ j ∈ range m, A i j * x j = ∑ t ∈ range k, A i (2 * t + odd) * x (2 * t + odd) := by
      symm
      rw [← Finset.sum_image (s := range k) (g := fun t => 2 * t + odd) (f := fun j => A i j * x j) (fun a _ b _ hab => by
        simp only at hab; omega)]
      refine Finset.sum_subset (fun j hj => ?_) (fun j hj hj' => ?_)
      · obtain ⟨t, ht, rfl⟩ := Finset.mem_image.1 hj
        have := Finset.mem_range.1 ht
        exact Finset.mem_range.2 (by omega)
      · rw [hx0 j, mul_zero]
        intro hpar'
        refine hj' (Finset.mem_image.2 ⟨j / 2, Finset.mem_range.2 ?_, by omega⟩)
        have := Finset.mem_range.1 hj
        omega
    rw [himg]
    by_cases hip : (i:ℕ) % 2 = odd
    · have hrow := congrFun hMv ⟨(i:ℕ) / 2, by have := i.2; omega⟩
      simp only [Matrix.mulVec, dotProduct, Matrix.of_apply, Pi.zero_apply] at hrow
      rw [← hrow, ← Fin.sum_univ_eq_sum_range (fun t => A i (2 * t + odd) * x (2 * t + odd)) k]
      refine Finset.sum_congr rfl fun t _ => ?_
      rw [hxe t t.2, show 2 * ((i:ℕ) / 2) + odd = i by omega]
    · refine Finset.sum_eq_zero fun t ht => ?_
      have := Finset.mem_range.1 ht
      have := i.2
      rw [hpar i (by omega) (2 * t + odd) (by omega) (by omega), zero_mul]

theorem sum_range_parity (M : ℕ) (g : ℕ → ℝ) : ∑ j ∈ range (2 * M), g j = ∑ i ∈ range M, (g (2 * i) + g (2 * i + 1)) := by
  induction M with
  | zero => simp
  | succ M ih => rw [show 2 * (M + 1) = 2 * M + 1 + 1 by ring, Finset.sum_range_succ, Finset.sum_range_succ, ih, Finset.sum_range_succ]; ring

/-- **C68** the biharmonic solver, with an even number of unknowns on the reference domain: whenever elimination without
pivoting is possible, the computed coefficients satisfy every Galerkin equation of `a u'''' + α u'' + β u = f`. -/
theorem C68_biharmonic (gl : Bool) (N : ℕ) (hN : 14 ≤ N) (hev : N % 2 = 0) (I : ℝ[X] →ₗ[ℝ] ℝ)
    (hI : OrthogonalForm chebT I N N (chebNormSq gl N)) (a α β : ℝ)
    (hM : Spec.Eliminable (N-4) (biharmonicMatrix I (chebSB N) a α β)) (b u : ℕ → ℝ) :
    let m := biDiags (ChebMat.SSBSB N) (ChebMat.ASBSB N) (ChebMat.BSBSB N N (chebNormSq gl N)) 1 1 1
    ∀ k < N - 4, BiharmonicEquation I (chebSB N) (N-4) a α β (biharmonicSolve (N-4) a α β m b u) b k := by
  intro m k hk
  have hh := C28_chebNormSq_norms gl N (by omega)
  obtain ⟨M, hMN⟩ : ∃ M, N - 4 = 2 * M := ⟨(N-4)/2, by omega⟩
  set odd := k % 2 with hodd
  have hent := biharmonic_biMat N (by omega) _ I hh hI a α β odd
  have hE : Spec.Eliminable M (biMat odd a α β (m.half odd)) := by
    refine eliminable_congr (fun i hi j hj => hent i j (by omega) (by omega)) ?_
    exact eliminable_parity (N-4) M odd (by omega) (by omega) _
      (fun i hi j hj hij => biharmonic_parity N _ I hh hI a α β i j hi hj hij) hM
  have hsol := biSolveHalf_solves odd M (by omega) a α β (m.half odd) hE (fun i => b (2 * i + odd)) (fun i => u (2 * i + odd)) (k / 2) (by omega)
  have hbk : (fun i => b (2 * i + odd)) (k / 2) = b k := by
    show b (2 * (k / 2) + odd) = b k
    rw [show 2 * (k / 2) + odd = k by omega]
  rw [hbk] at hsol
  rw [biharmonicEquation_iff, ← hsol, hMN, sum_range_parity, Spec.mulVec]
  refine Finset.sum_congr rfl fun i hi => ?_
  have hi' := Finset.mem_range.1 hi
  have hx : ∀ t < M, biharmonicSolve (2 * M) a α β m b u (2 * t + odd) =
      biSolveHalf M odd (luBiharmonic odd M a α β (m.half odd)) a (fun i => b (2 * i + odd)) (fun i => u (2 * i + odd)) t := by
    intro t ht
    unfold biharmonicSolve biFactorise
    dsimp only
    rw [show (2 * t + odd) % 2 = odd by omega, show (2 * t + odd) / 2 = t by omega, show (2 * M + 1) / 2 = M by omega,
      show (2 * M + 1 - odd) / 2 = M by omega]
  rw [← hx i hi', ← hent (k/2) i (by omega) (by omega), show 2 * (k / 2) + odd = k by omega]
  rcases (by omega : odd = 0 ∨ odd = 1) with h | h
  · rw [biharmonic_parity N _ I hh hI a α β k (2 * i + 1) hk (by omega) (by omega), h]
    ring_nf
  · rw [biharmonic_parity N _ I hh hI a α β k (2 * i) hk (by omega) (by omega), h]
    ring_nf

/-- The fourth-order part alone can always be eliminated: it is upper triangular. -/
theorem C68_eliminable_fourth (N : ℕ) (I : ℝ[X] →ₗ[ℝ] ℝ) (a : ℝ) (ha : a ≠ 0) :
    Spec.Eliminable (N-4) (biharmonicMatrix I (chebSB N) a 0 0) := by
  intro k hk
  unfold Spec.leadMinor
  have hent : ∀ i < N - 4, ∀ j < N - 4, biharmonicMatrix I (chebSB N) a 0 0 i j = a * chebForm 4 (chebSB N i) (chebSB N j) := by
    intro i _ j _; unfold biharmonicMatrix; ring
  rw [Matrix.det_of_isUpperTriangular]
  · refine Finset.prod_ne_zero_iff.2 fun i _ => ?_
    have := i.2
    rw [Matrix.of_apply, hent i (by omega) i (by omega), ssbsb_entry (by omega) (by omega), if_pos rfl]
    have := Real.pi_pos
    exact mul_ne_zero ha (by positivity)
  · intro i j hij
    have hij' : (j:ℕ) < i := hij
    have := i.2
    rw [Matrix.of_apply, hent i (by omega) j (by omega), ssbsb_entry (by omega) (by omega), if_neg (by omega), if_neg (by omega), mul_zero]

/-- Elimination stays possible for all but finitely many multiples of a perturbation. -/
theorem eliminable_generic (n : ℕ) (A B : ℕ → ℕ → ℝ) (hA : Spec.Eliminable n A) :
    {t : ℝ | ¬ Spec.Eliminable n fun i j => A i j + t * B i j}.Finite := by
  let P (k : ℕ) : Matrix (Fin k) (Fin k) ℝ[X] := Matrix.of fun i j => C (A i j) + X * C (B i j)
  have hev : ∀ k (x : ℝ), (P k).det.eval x = Spec.leadMinor (fun i j => A i j + x * B i j) k := fun k x => by
    show evalRingHom x (P k).det = _
    rw [RingHom.map_det]
    unfold Spec.leadMinor
    congr 1
    refine Matrix.ext fun i j => ?_
    show eval x (C (A i j) + X * C (B i j)) = _
    rw [eval_add, eval_C, eval_mul, eval_X, eval_C, Matrix.of_apply]
  have hP : ∀ k ≤ n, (P k).det ≠ 0 := fun k hk h0 => by
    have h := hev k 0
    rw [h0, eval_zero] at h
    refine hA k hk ?_
    rw [h]
    simp
  refine Set.Finite.subset (Set.Finite.biUnion (Set.finite_le_nat n) fun k _ => ((P k).det.roots.toFinset.finite_toSet)) ?_
  intro t ht
  by_contra hno
  simp only [Set.mem_iUnion, not_exists] at hno
  refine ht fun k hk => ?_
  rw [← hev]
  exact fun h => hno k hk (by rw [Finset.mem_coe, Multiset.mem_toFinset, mem_roots (hP k hk)]; exact h)

/-- **C68** for a fixed fourth-order coefficient and any lower-order part, elimination is possible for all but finitely many
multiples of the lower-order part. -/
theorem C68_eliminable_generic (N : ℕ) (I : ℝ[X] →ₗ[ℝ] ℝ) (a α β : ℝ) (ha : a ≠ 0) :
    {t : ℝ | ¬ Spec.Eliminable (N-4) (biharmonicMatrix I (chebSB N) a (t * α) (t * β))}.Finite := by
  refine (eliminable_generic (N-4) _ (biharmonicMatrix I (chebSB N) 0 α β) (C68_eliminable_fourth N I a ha)).subset ?_
  intro t ht
  refine fun h => ht ?_
  convert h using 3
  unfold biharmonicMatrix
  ring

/-- Quadratic form of a Galerkin matrix. -/
theorem quad_form (F : ℝ[X] → ℝ[X] → ℝ) (n : ℕ) (φ : ℕ → ℝ[X]) (x : ℕ → ℝ)
    (hl : ∀ v, F (∑ j ∈ range n, C (x j) * φ j) v = ∑ j ∈ range n, x j * F (φ j) v)
    (hr : ∀ v, F v (∑ j ∈ range n, C (x j) * φ j) = ∑ j ∈ range n, F v (φ j) * x j) :
    ∑ i ∈ range n, ∑ j ∈ range n, x i * F (φ i) (φ j) * x j = F (∑ j ∈ range n, C (x j) * φ j) (∑ j ∈ range n, C (x j) * φ j) := by
  rw [hl]
  refine Finset.sum_congr rfl fun i _ => ?_
  rw [hr, Finset.mul_sum]
  exact Finset.sum_congr rfl fun j _ => by ring

theorem chebForm_quad (r n : ℕ) (φ : ℕ → ℝ[X]) (x : ℕ → ℝ) :
    ∑ i ∈ range n, ∑ j ∈ range n, x i * chebForm r (φ i) (φ j) * x j =
      chebForm r (∑ j ∈ range n, C (x j) * φ j) (∑ j ∈ range n, C (x j) * φ j) := by
  refine quad_form (chebForm r) n φ x (fun v => ?_) (fun v => chebForm_sum r n v φ x)
  show chebI _ = ∑ j ∈ range n, x j * chebI _
  rw [mul_comm, form_sum]
  exact Finset.sum_congr rfl fun j _ => by rw [mul_comm, mul_comm (φ j)]

theorem form_quad (I : ℝ[X] →ₗ[ℝ] ℝ) (n : ℕ) (φ : ℕ → ℝ[X]) (x : ℕ → ℝ) :
    ∑ i ∈ range n, ∑ j ∈ range n, x i * I (φ i * φ j) * x j =
      I ((∑ j ∈ range n, C (x j) * φ j) * (∑ j ∈ range n, C (x j) * φ j)) := by
  refine quad_form (fun v u => I (v * u)) n φ x (fun v => ?_) (fun v => form_sum I n v φ x)
  show I (_ * v) = ∑ j ∈ range n, x j * I (φ j * v)
  rw [mul_comm, form_sum]
  exact Finset.sum_congr rfl fun j _ => by rw [mul_comm, mul_comm (φ j)]

/-- **C68** the signs of a dissipative problem (`a > 0`, `α ≤ 0`, `β ≥ 0`, or all reversed), with the norms of exact integration
or of either quadrature: elimination is always possible. -/
theorem C68_eliminable_definite (gl : Bool) (N : ℕ) (hN : 4 ≤ N) (I : ℝ[X] →ₗ[ℝ] ℝ) (hI : OrthogonalForm chebT I N N (chebNormSq gl N))
    (a α β : ℝ) (ha : a ≠ 0) (hα : a * α ≤ 0) (hβ : 0 ≤ a * β) :
    Spec.Eliminable (N-4) (biharmonicMatrix I (chebSB N) a α β) := by
  refine eliminable_of_definite _ _ fun x hx hzero => ?_
  set U : ℝ[X] := ∑ j ∈ range (N-4), C (x j) * chebSB N j with hU
  have e : ∑ i ∈ range (N-4), ∑ j ∈ range (N-4), x i * biharmonicMatrix I (chebSB N) a α β i j * x j =
      a * chebForm 4 U U + α * chebForm 2 U U + β * I (U * U) := by
    rw [hU, ← chebForm_quad, ← chebForm_quad, ← form_quad]
    simp only [Finset.mul_sum, ← Finset.sum_add_distrib]
    exact Finset.sum_congr rfl fun i _ => Finset.sum_congr rfl fun j _ => by unfold biharmonicMatrix; ring
  have hbasis := C48_cheb_ShenBiharmonic N hN
  have hUf : U = ∑ i : Fin (N-4), C (x i) * chebSB N i := by
    rw [hU, ← Fin.sum_univ_eq_sum_range (fun j => C (x j) * chebSB N j)]
  have hdeg : U.degree < N := by
    rw [hU]
    refine lt_of_le_of_lt (degree_sum_le _ _) ((Finset.sup_lt_iff (WithBot.bot_lt_coe N)).2 fun j hj => ?_)
    refine lt_of_le_of_lt (degree_mul_le _ _) ?_
    have h1 := (hbasis.1 j (Finset.mem_range.1 hj)).1
    have h2 : (C (x j) : ℝ[X]).degree ≤ 0 := degree_C_le
    calc _ ≤ 0 + (chebSB N j).degree := add_le_add h2 le_rfl
      _ < _ := by rw [zero_add]; exact h1
  have hhom : Homogeneous (both 2) U := by
    intro bc hbc
    rw [hU, iterate_derivative_sum, eval_finsetSum]
    refine Finset.sum_eq_zero fun j hj => ?_
    rw [iterate_derivative_C_mul, eval_C_mul, (hbasis.1 j (Finset.mem_range.1 hj)).2 bc hbc, mul_zero]
  have hne : U ≠ 0 := by
    intro h0
    obtain ⟨i, hi, hxi⟩ := hx
    obtain ⟨c, _, huniq⟩ := hbasis.2 0 (by simp) (fun bc _ => by simp)
    have h1 := huniq (fun i => x i) (by rw [← h0, hUf])
    have h2 := huniq (fun _ => 0) (by simp)
    exact hxi (congrFun (h1.trans h2.symm) ⟨i, hi⟩)
  have h4 := chebForm_four_pos hhom hne
  have h2 := chebForm_two_neg (hhom (Side.right, 0) (by simp [both])) (hhom (Side.left, 0) (by simp [both])) hne
  have h0 : 0 ≤ I (U * U) := by
    obtain ⟨c, hc⟩ := exists_expansion degree_chebT N U hdeg
    rw [hc]
    exact form_sq_nonneg N _ (fun k _ => (chebNormSq_pos gl N k).le) I hI c
  rw [e] at hzero
  have h5 : a * (a * chebForm 4 U U + α * chebForm 2 U U + β * I (U * U)) = 0 := by rw [hzero, mul_zero]
  have h6 : 0 < a ^ 2 * chebForm 4 U U := mul_pos (by positivity) h4
  have h7 : 0 ≤ a * α * chebForm 2 U U := mul_nonneg_of_nonpos_of_nonpos hα h2.le
  have h8 : 0 ≤ a * β * I (U * U) := mul_nonneg hβ h0
  linarith

/-- **C68** dissipative biharmonic problems on the reference domain with an even number of unknowns: no pivot vanishes and
the computed coefficients satisfy every Galerkin equation. -/
theorem C68_biharmonic_definite (gl : Bool) (N : ℕ) (hN : 14 ≤ N) (hev : N % 2 = 0) (I : ℝ[X] →ₗ[ℝ] ℝ)
    (hI : OrthogonalForm chebT I N N (chebNormSq gl N)) (a α β : ℝ) (ha : a ≠ 0) (hα : a * α ≤ 0) (hβ : 0 ≤ a * β) (b u : ℕ → ℝ) :
    let m := biDiags (ChebMat.SSBSB N) (ChebMat.ASBSB N) (ChebMat.BSBSB N N (chebNormSq gl N)) 1 1 1
    ∀ k < N - 4, BiharmonicEquation I (chebSB N) (N-4) a α β (biharmonicSolve (N-4) a α β m b u) b k :=
  C68_biharmonic gl N hN hev I hI a α β (C68_eliminable_definite gl N (by omega) I hI a α β ha hα hβ) b u

/-- Non-vacuity: sixteen points, exact integration; the pure biharmonic problem, and one with `α = -t`, `β = t`, `t > 1`. -/
example (b u : ℕ → ℝ) : (∀ k < 12, BiharmonicEquation chebI (chebSB 16) 12 1 0 0 (biharmonicSolve 12 1 0 0
      (biDiags (ChebMat.SSBSB 16) (ChebMat.ASBSB 16) (ChebMat.BSBSB 16 16 (chebNormSq false 16)) 1 1 1) b u) b k) ∧
    ∃ t : ℝ, 1 < t ∧ ∀ k < 12, BiharmonicEquation chebI (chebSB 16) 12 1 (t * -1) (t * 1) (biharmonicSolve 12 1 (t * -1) (t * 1)
      (biDiags (ChebMat.SSBSB 16) (ChebMat.ASBSB 16) (ChebMat.BSBSB 16 16 (chebNormSq false 16)) 1 1 1) b u) b k := by
  refine ⟨C68_biharmonic false 16 (by norm_num) (by norm_num) chebI (C28_cheb_exact_form 16 16) 1 0 0
    (C68_eliminable_fourth 16 chebI 1 one_ne_zero) b u, ?_⟩
  obtain ⟨t, ht, hn⟩ := (Set.Ioi_infinite (1:ℝ)).exists_notMem_finite (C68_eliminable_generic 16 chebI 1 (-1) 1 one_ne_zero)
  exact ⟨t, ht, C68_biharmonic false 16 (by norm_num) (by norm_num) chebI (C28_cheb_exact_form 16 16) 1 _ _ (not_not.1 hn) b u⟩

/-- The pivots beyond the size of the class are never written. -/
theorem luBiharmonic_u0_beyond (odd M : ℕ) (hM : 1 ≤ M) (a b c : ℝ) (m : BiDiags) (i : ℕ) (hi : M ≤ i) :
    (luBiharmonic odd M a b c m).u0 i = 0 := by
  unfold luBiharmonic
  refine forN_inv _ _ (fun _ (s : BiLU) => s.u0 i = 0) (M-1) ?_ ?_ (M-1) le_rfl
  · show Function.update (fun _ => (0:ℝ)) 0 _ i = 0
    rw [Function.update_of_ne (by omega)]
  · intro q hq s hs
    show Function.update s.u0 (q+1) _ i = 0
    rw [Function.update_of_ne (by omega)]
    exact hs

/-- **C68** refuted for an odd number of unknowns: the substitution of the odd unknowns starts one place too high and divides
by an entry of the pivot array that is never written and therefore zero, whatever the coefficients and matrices. -/
theorem C68_odd_size_zero_pivot (n : ℕ) (hn : 3 ≤ n) (hodd : n % 2 = 1) (a α β : ℝ) (m : BiDiags) :
    (biFactorise n a α β m 1).u0 ((n + 1) / 2 - 1) = 0 := by
  unfold biFactorise
  exact luBiharmonic_u0_beyond 1 _ (by omega) a α β _ _ (by omega)

/-- **C68** refuted on a domain other than the reference one, where the domain factor `c` is incorporated in the stored
diagonals of the fourth-order matrix but not in the entries hard-wired in the kernels: for some right-hand side an equation
fails, already without lower-order terms. -/
theorem C68_domain_factor_wrong (gl : Bool) (N : ℕ) (hN : 14 ≤ N) (hev : N % 2 = 0) (I : ℝ[X] →ₗ[ℝ] ℝ) (c sA sB : ℝ) (hc : c ≠ 0) (hc1 : c ≠ 1)
    (u : ℕ → ℝ) :
    let m := biDiags (ChebMat.SSBSB N) (ChebMat.ASBSB N) (ChebMat.BSBSB N N (chebNormSq gl N)) c sA sB
    ∃ b : ℕ → ℝ, ∃ k < N - 4, ¬ BiharmonicEquation I (chebSB N) (N-4) c 0 0 (biharmonicSolve (N-4) 1 0 0 m b u) b k := by
  intro m
  by_contra hcon
  push Not at hcon
  obtain ⟨M, hMN⟩ : ∃ M, N - 4 = 2 * M := ⟨(N-4)/2, by omega⟩
  set H := biMat 0 1 0 0 (m.half 0) with hH
  have s0 : ∀ t, (ChebMat.SSBSB N).at 0 t = Real.pi * 8 * ((t:ℝ) + 1) ^ 2 * (t + 2) * (t + 4) := by
    intro t; rw [ChebMat.SSBSB, fromkeys2_at _ _ _ _ le_rfl (by omega) (by norm_num)]; rfl
  have hdiag : ∀ i, H i i = c * (Real.pi * 8 * (((2 * i + 0 : ℕ):ℝ) + 1) ^ 2 * (((2 * i + 0 : ℕ):ℝ) + 2) * (((2 * i + 0 : ℕ):ℝ) + 4)) := by
    intro i
    rw [hH]
    unfold biMat
    rw [if_pos rfl]
    show 1 * (c * (ChebMat.SSBSB N).at 0 (2 * i + 0)) + 0 * _ + 0 * _ = _
    rw [s0]
    ring
  have hlow : ∀ i j, j < i → H i j = 0 := by
    intro i j hij
    rw [hH]
    unfold biMat
    rw [if_neg (by omega), if_neg (by omega), if_neg (by omega), if_neg (by omega)]
    simp
  have hpi := Real.pi_pos
  have hne : ∀ i, H i i ≠ 0 := fun i => by rw [hdiag]; exact mul_ne_zero hc (by positivity)
  have hE : Spec.Eliminable M H := by
    intro k hk
    unfold Spec.leadMinor
    rw [Matrix.det_of_isUpperTriangular]
    · exact Finset.prod_ne_zero_iff.2 fun i _ => hne i
    · intro i j hij; exact hlow i j hij
  set e : ℕ → ℝ := fun i => if i = 3 then 1 else 0 with he
  set b : ℕ → ℝ := fun i => if i % 2 = 0 then H (i / 2) 3 else 0 with hb
  have hbe : (fun i => b (2 * i + 0)) = fun i => H i 3 := by
    funext i
    rw [hb]
    show (if (2 * i + 0) % 2 = 0 then H ((2 * i + 0) / 2) 3 else 0) = _
    rw [if_pos (by omega), show (2 * i + 0) / 2 = i by omega]
  have hsol := biSolveHalf_solves 0 M (by omega) 1 0 0 (m.half 0) hE (fun i => b (2 * i + 0)) (fun i => u (2 * i + 0))
  set y := biSolveHalf M 0 (luBiharmonic 0 M 1 0 0 (m.half 0)) 1 (fun i => b (2 * i + 0)) (fun i => u (2 * i + 0)) with hy
  have hsol' : Spec.Solves M H e fun i => b (2 * i + 0) := by
    intro i hi
    rw [hbe]
    unfold Spec.mulVec
    rw [Finset.sum_eq_single 3]
    · rw [he]; simp
    · intro j _ hj; rw [he]; simp [hj]
    · intro h; exact absurd (Finset.mem_range.2 (by omega)) h
  have hye : ∀ i < M, y i = e i := by
    have hz := upper_zero (n := M) (w := fun i => y i - e i) hlow (fun i _ => hne i) (fun i hi => by
      have h1 := hsol i hi
      have h2 := hsol' i hi
      unfold Spec.mulVec at *
      simp only [mul_sub, Finset.sum_sub_distrib]
      rw [h2, h1, sub_self])
    exact fun i hi => sub_eq_zero.1 (hz i hi)
  have hx : ∀ t < M, biharmonicSolve (N-4) 1 0 0 m b u (2 * t) = e t := by
    intro t ht
    rw [← hye t ht, hy, hMN]
    unfold biharmonicSolve biFactorise
    dsimp only
    rw [show (2 * t) % 2 = 0 by omega, show (2 * t) / 2 = t by omega, show (2 * M + 1) / 2 = M by omega, show (2 * M + 1 - 0) / 2 = M by omega]
  have h0 := hcon b 0 (by omega)
  rw [biharmonicEquation_iff, hMN, sum_range_parity] at h0
  have hterm : ∀ i ∈ range M, biharmonicMatrix I (chebSB N) c 0 0 0 (2 * i) * biharmonicSolve (2 * M) 1 0 0 m b u (2 * i) +
      biharmonicMatrix I (chebSB N) c 0 0 0 (2 * i + 1) * biharmonicSolve (2 * M) 1 0 0 m b u (2 * i + 1) =
      c * chebForm 4 (chebSB N 0) (chebSB N (2 * i)) * e i := by
    intro i hi
    have hi' := Finset.mem_range.1 hi
    rw [← hMN, hx i hi']
    have hz : biharmonicMatrix I (chebSB N) c 0 0 0 (2 * i + 1) = 0 := by
      unfold biharmonicMatrix
      rw [ssbsb_entry (by omega) (by omega), if_neg (by omega), if_neg (by omega)]
      ring
    rw [hz]
    unfold biharmonicMatrix
    ring
  rw [Finset.sum_congr rfl hterm, Finset.sum_eq_single 3] at h0
  · rw [ssbsb_entry (by omega) (by omega), if_neg (by omega), if_pos (by omega)] at h0
    have hb0 : b 0 = H 0 3 := rfl
    have hH03 : H 0 3 = biFar 0 1 (2 * 0 + 0) 3 := by rw [hH]; unfold biMat; ifs
    rw [hb0, hH03, he] at h0
    unfold biFar at h0
    norm_num at h0
    have h1 : (c - 1) * Real.pi = 0 := by nlinarith
    rcases mul_eq_zero.1 h1 with h | h
    · exact hc1 (by linarith)
    · exact hpi.ne' h
  · intro j _ hj; rw [he]; simp [hj]
  · intro h; exact absurd (Finset.mem_range.2 (by omega)) h

end Shenfun
