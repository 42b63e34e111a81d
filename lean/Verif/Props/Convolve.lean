import Verif.Model.Convolve
import Verif.Props.Fourier
import Verif.Lemmas.Loop

/-!
# C83: direct convolution of Fourier coefficients
-/

namespace Shenfun

open Complex Finset

namespace Convolve

open Fourier Shenfun.Fourier

/-! ## Loops are sums -/

theorem inner_sum (idx : ℕ → Option ℕ) (t : ℕ → ℂ) (f : ℕ → (ℕ → ℂ) → ℕ → ℂ)
    (hf : ∀ b uv, f b uv = fun i => uv i + if idx b = some i then t b else 0) (uv : ℕ → ℂ) (n : ℕ) :
    forN f uv n = fun i => uv i + ∑ b ∈ range n, if idx b = some i then t b else 0 := by
  induction n with
  | zero => funext i; simp [forN]
  | succ n ih =>
    funext i
    rw [forN_succ, hf, ih, Finset.sum_range_succ]
    ring

theorem outer_sum (idx : ℕ → ℕ → Option ℕ) (t : ℕ → ℕ → ℂ) (f : ℕ → ℕ → (ℕ → ℂ) → ℕ → ℂ)
    (hf : ∀ a b uv, f a b uv = fun i => uv i + if idx a b = some i then t a b else 0) (uv : ℕ → ℂ) (m n : ℕ) (i : ℕ) :
    forN (fun a uv => forN (f a) uv n) uv m i =
      uv i + ∑ a ∈ range m, ∑ b ∈ range n, if idx a b = some i then t a b else 0 := by
  induction m generalizing i with
  | zero => simp [forN]
  | succ m ih =>
    rw [forN_succ, inner_sum (idx m) (t m) (f m) (hf m)]
    dsimp only
    rw [ih, Finset.sum_range_succ]
    ring

theorem update_add (uv : ℕ → ℂ) (j : ℕ) (t : ℂ) :
    Function.update uv j (uv j + t) = fun i => uv i + if some j = some i then t else 0 := by
  funext i
  by_cases h : i = j
  · subst h; simp
  · rw [Function.update_of_ne h, if_neg (by simpa using fun h' => h h'.symm), add_zero]

/-- The wavenumbers used are `-h, …, h`, each once. -/
theorem sum_wavenumbers (h : ℕ) (g : ℤ → ℂ) :
    ∑ a ∈ range (2 * h + 1), g (wavenumbersC2C (2 * h + 1) a) = ∑ m ∈ Finset.Icc (-(h:ℤ)) h, g m := by
  refine Finset.sum_bij (fun a _ => wavenumbersC2C (2 * h + 1) a) ?_ ?_ ?_ fun _ _ => rfl
  · intro a ha
    have := Finset.mem_range.1 ha
    simp only [wavenumbersC2C, Finset.mem_Icc]
    split_ifs <;> omega
  · intro a ha b hb e
    have := Finset.mem_range.1 ha
    have := Finset.mem_range.1 hb
    simp only [wavenumbersC2C] at e
    split_ifs at e <;> omega
  · intro m hm
    have := Finset.mem_Icc.1 hm
    by_cases h0 : 0 ≤ m
    · refine ⟨m.toNat, Finset.mem_range.2 (by omega), ?_⟩
      simp only [wavenumbersC2C]
      rw [if_pos (by omega)]; omega
    · refine ⟨(m + (2 * h + 1)).toNat, Finset.mem_range.2 (by omega), ?_⟩
      simp only [wavenumbersC2C]
      rw [if_neg (by omega)]; omega

theorem Np_eq (N : ℕ) : Np N = 2 * (N / 2) + 1 := by unfold Np; split_ifs <;> omega

/-- All index expressions are within the arrays: no `IndexError`. -/
theorem C83_bounds (N : ℕ) (hN : 1 ≤ N) (a b : ℕ) (ha : a < Np N) (hb : b < Np N) :
    let m := wavenumbersC2C (Np N) a
    let n := wavenumbersC2C (Np N) b
    (-(N:ℤ) ≤ m ∧ m < N ∧ |m|.toNat < N / 2 + 1) ∧ (-(2 * N : ℤ) ≤ m + n ∧ m + n < 2 * N) ∧ m + n < (N:ℤ) + 1 := by
  intro m n
  have hm : -((N / 2 : ℕ) : ℤ) ≤ m ∧ m ≤ ((N / 2 : ℕ) : ℤ) := by
    rw [Np_eq] at ha
    simp only [m, Np_eq, wavenumbersC2C]; split_ifs <;> omega
  have hn : -((N / 2 : ℕ) : ℤ) ≤ n ∧ n ≤ ((N / 2 : ℕ) : ℤ) := by
    rw [Np_eq] at hb
    simp only [n, Np_eq, wavenumbersC2C]; split_ifs <;> omega
  have := abs_le.2 hm
  omega

theorem factC_eq (N : ℕ) (hN : 1 ≤ N) (u : ℕ → ℂ) (m : ℤ) (hm : |m| ≤ ((N / 2 : ℕ) : ℤ)) : factC N u m = Spec.coefC N u m := by
  have h := abs_le.1 hm
  have hidx : 2 * |m| < N → pyIdx N m = (m % (N:ℤ)).toNat := by
    intro _
    unfold pyIdx
    split_ifs with h0
    · rw [← Int.add_emod_right, Int.emod_eq_of_lt (by omega) (by omega)]
    · rw [Int.emod_eq_of_lt (by omega) (by omega)]
  unfold factC Spec.coefC
  by_cases he : N % 2 = 0
  · rw [if_pos he]
    by_cases hq : |m| = ((N / 2 : ℕ) : ℤ)
    · rw [if_pos hq, if_neg (by omega), if_pos (by omega)]
      have : pyIdx N m = N / 2 := by rcases abs_cases m with ha | ha <;> unfold pyIdx <;> split_ifs <;> omega
      rw [this]; ring
    · rw [if_neg hq, if_pos (by omega), hidx (by omega)]
  · rw [if_neg he, if_pos (by omega), hidx (by omega)]

theorem factR_eq (N : ℕ) (u : ℕ → ℂ) (h0 : (u 0).im = 0) (hny : N % 2 = 0 → (u (N / 2)).im = 0) (m : ℤ)
    (hm : |m| ≤ ((N / 2 : ℕ) : ℤ)) : factR N u m = Spec.coefR N u m := by
  have h := abs_le.1 hm
  have hre : ∀ z : ℂ, z.im = 0 → ((z.re : ℝ) : ℂ) = z := fun z hz => by apply Complex.ext <;> simp [hz]
  have hconj : ∀ z : ℂ, (z.re : ℂ) - I * z.im = (starRingEnd ℂ) z := fun z => by apply Complex.ext <;> simp
  have key : 2 * |m| < N → (if 0 ≤ m then u m.toNat else ((u |m|.toNat).re : ℂ) - I * (u |m|.toNat).im) =
      (if m = 0 then ((u 0).re : ℂ) else if 0 < m then u m.toNat else (starRingEnd ℂ) (u (-m).toNat)) := by
    intro _
    by_cases hz : m = 0
    · subst hz; simp [hre _ h0]
    · rw [if_neg hz]
      by_cases hp : 0 < m
      · rw [if_pos hp.le, if_pos hp]
      · rw [if_neg (by omega), if_neg hp, hconj, abs_of_neg (by omega)]
  unfold factR Spec.coefR
  by_cases he : N % 2 = 0
  · rw [if_pos he]
    by_cases hq : |m| = ((N / 2 : ℕ) : ℤ)
    · rw [if_pos hq, if_neg (by omega), if_pos (by omega), hq, Int.toNat_natCast, hre _ (hny he)]; ring
    · rw [if_neg hq, key (by omega), if_pos (show 2 * |m| < (N:ℤ) by omega)]
  · rw [if_neg he, key (by omega), if_pos (show 2 * |m| < (N:ℤ) by omega)]

/-- Sums over `-N..N` of something supported in `-N/2..N/2`. -/
theorem sum_support (N : ℕ) (g : ℤ → ℂ) (hg : ∀ k, g k ≠ 0 → 2 * |k| ≤ N) :
    ∑ m ∈ Finset.Icc (-((N / 2 : ℕ) : ℤ)) ((N / 2 : ℕ) : ℤ), g m = ∑ m ∈ Finset.Icc (-(N:ℤ)) N, g m := by
  refine Finset.sum_subset ?_ ?_
  · intro m hm
    have := Finset.mem_Icc.1 hm
    exact Finset.mem_Icc.2 (by omega)
  · intro m _ hm
    by_contra hne
    have h2 := hg m hne
    have := abs_le.1 (show |m| ≤ ((N / 2 : ℕ) : ℤ) by omega)
    exact hm (Finset.mem_Icc.2 this)

/-- Double sum over the wavenumbers as a double sum over `-N..N`. -/
theorem double_sum (N : ℕ) (F : ℤ → ℤ → ℂ) (hF : ∀ m n, F m n ≠ 0 → 2 * |m| ≤ N ∧ 2 * |n| ≤ N) :
    ∑ a ∈ range (Np N), ∑ b ∈ range (Np N), F (wavenumbersC2C (Np N) a) (wavenumbersC2C (Np N) b) =
      ∑ p ∈ Finset.Icc (-(N:ℤ)) N, ∑ q ∈ Finset.Icc (-(N:ℤ)) N, F p q := by
  rw [Np_eq]
  have e : ∀ m, ∑ b ∈ range (2 * (N / 2) + 1), F m (wavenumbersC2C (2 * (N / 2) + 1) b) = ∑ q ∈ Finset.Icc (-(N:ℤ)) N, F m q := by
    intro m
    rw [sum_wavenumbers (N / 2) (fun n => F m n), sum_support N (fun n => F m n) fun n h => (hF m n h).2]
  simp only [e]
  rw [sum_wavenumbers (N / 2) (fun m => ∑ q ∈ Finset.Icc (-(N:ℤ)) N, F m q)]
  refine sum_support N _ fun m h => ?_
  obtain ⟨q, -, hq⟩ := Finset.exists_ne_zero_of_sum_ne_zero h
  exact (hF m q hq).1

/-- What is added to position `i` of `uv`. -/
theorem directC2C_sum (N : ℕ) (hN : 1 ≤ N) (u v : ℕ → ℂ) (uv : Option (ℕ → ℂ)) (i : ℕ) :
    directC2C N u v uv i = uv.getD (fun _ => 0) i + ∑ p ∈ Finset.Icc (-(N:ℤ)) N, ∑ q ∈ Finset.Icc (-(N:ℤ)) N,
      if pyIdx (2 * N) (p + q) = i then Spec.coefC N u p * Spec.coefC N v q else 0 := by
  unfold directC2C convolve1D
  rw [outer_sum (fun a b => some (pyIdx (2 * N) (wavenumbersC2C (Np N) a + wavenumbersC2C (Np N) b)))
    (fun a b => factC N u (wavenumbersC2C (Np N) a) * factC N v (wavenumbersC2C (Np N) b)) _ (fun a b uv => update_add uv _ _)]
  congr 1
  rw [← double_sum]
  · refine Finset.sum_congr rfl fun a ha => Finset.sum_congr rfl fun b hb => ?_
    have h := C83_bounds N hN a b (Finset.mem_range.1 ha) (Finset.mem_range.1 hb)
    have h' := C83_bounds N hN b a (Finset.mem_range.1 hb) (Finset.mem_range.1 ha)
    rw [factC_eq N hN u _ (by have := h.1.2.2; omega), factC_eq N hN v _ (by have := h'.1.2.2; omega)]
    simp only [Option.some.injEq]
  · intro m n h
    split_ifs at h with h1
    · exact ⟨coefC_support N u m (left_ne_zero_of_mul h), coefC_support N v n (right_ne_zero_of_mul h)⟩
    · exact absurd rfl h

theorem directR2C_sum (N : ℕ) (hN : 1 ≤ N) (u v : ℕ → ℂ) (hu0 : (u 0).im = 0) (hu : N % 2 = 0 → (u (N / 2)).im = 0)
    (hv0 : (v 0).im = 0) (hv : N % 2 = 0 → (v (N / 2)).im = 0) (uv : Option (ℕ → ℂ)) (i : ℕ) :
    directR2C N u v uv i = uv.getD (fun _ => 0) i + ∑ p ∈ Finset.Icc (-(N:ℤ)) N, ∑ q ∈ Finset.Icc (-(N:ℤ)) N,
      if p + q = i then Spec.coefR N u p * Spec.coefR N v q else 0 := by
  unfold directR2C convolveReal1D
  dsimp only
  rw [Nat.add_sub_cancel]
  rw [outer_sum (fun a b => if 0 ≤ wavenumbersC2C (Np N) a + wavenumbersC2C (Np N) b
      then some (wavenumbersC2C (Np N) a + wavenumbersC2C (Np N) b).toNat else none)
    (fun a b => factR N u (wavenumbersC2C (Np N) a) * factR N v (wavenumbersC2C (Np N) b)) _ ?_]
  · congr 1
    rw [← double_sum]
    · refine Finset.sum_congr rfl fun a ha => Finset.sum_congr rfl fun b hb => ?_
      have h := C83_bounds N hN a b (Finset.mem_range.1 ha) (Finset.mem_range.1 hb)
      have h' := C83_bounds N hN b a (Finset.mem_range.1 hb) (Finset.mem_range.1 ha)
      rw [factR_eq N u hu0 hu _ (by have := h.1.2.2; omega), factR_eq N v hv0 hv _ (by have := h'.1.2.2; omega)]
      congr 1
      split_ifs with h2
      · simp only [Option.some.injEq]
        exact propext (by omega)
      · exact propext ⟨fun h => absurd h (by simp), fun h => by omega⟩
    · intro m n h
      split_ifs at h with h1
      · exact ⟨coefR_support N u m (left_ne_zero_of_mul h), coefR_support N v n (right_ne_zero_of_mul h)⟩
      · exact absurd rfl h
  · intro a b uv
    by_cases h : 0 ≤ wavenumbersC2C (Np N) a + wavenumbersC2C (Np N) b
    · simp only [if_pos h]; exact update_add uv _ _
    · simp only [if_neg h]; funext i; simp

/-- **C83** (complex) The `2N` numbers returned represent, in the sense of `Spec.coefC`, exactly the product: the coefficient of every
wavenumber is that of the product of the two functions. -/
theorem C83_C2C (N : ℕ) (hN : 1 ≤ N) (u v : ℕ → ℂ) (k : ℤ) :
    Spec.coefC (2 * N) (directC2C N u v none) k = Spec.conv N (Spec.coefC N u) (Spec.coefC N v) k := by
  have hs := fun k => conv_eq_sum N (Spec.coefC N u) (Spec.coefC N v) (fun k hk => by have := coefC_support N v k hk; omega) k
  rw [← hs k]
  have supp : ∀ p q, Spec.coefC N u p * Spec.coefC N v q ≠ 0 → |p + q| ≤ N := by
    intro p q h
    have h1 := coefC_support N u p (left_ne_zero_of_mul h)
    have h2 := coefC_support N v q (right_ne_zero_of_mul h)
    have := abs_add_le p q
    omega
  have sym : ∑ p ∈ Finset.Icc (-(N:ℤ)) N, ∑ q ∈ Finset.Icc (-(N:ℤ)) N,
        (if p + q = (N:ℤ) then Spec.coefC N u p * Spec.coefC N v q else 0) =
      ∑ p ∈ Finset.Icc (-(N:ℤ)) N, ∑ q ∈ Finset.Icc (-(N:ℤ)) N,
        (if p + q = -(N:ℤ) then Spec.coefC N u p * Spec.coefC N v q else 0) := by
    have cneg : ∀ (w : ℕ → ℂ) (p : ℤ), 2 * |p| = N → Spec.coefC N w (-p) = Spec.coefC N w p := by
      intro w p hp
      unfold Spec.coefC
      rw [abs_neg, if_neg (show ¬ 2 * |p| < (N:ℤ) by omega), if_neg (show ¬ 2 * |p| < (N:ℤ) by omega)]
    refine Finset.sum_equiv (Equiv.neg ℤ) (by intro p; simp only [Equiv.neg_apply, Finset.mem_Icc]; omega) fun p _ => ?_
    refine Finset.sum_equiv (Equiv.neg ℤ) (by intro p; simp only [Equiv.neg_apply, Finset.mem_Icc]; omega) fun q _ => ?_
    simp only [Equiv.neg_apply]
    by_cases h : p + q = N
    · rw [if_pos h, if_pos (by omega)]
      by_cases hz : 2 * |p| = N ∧ 2 * |q| = N
      · rw [cneg u p hz.1, cneg v q hz.2]
      · have z : ∀ p q : ℤ, p + q = N ∨ p + q = -(N:ℤ) → ¬ (2 * |p| = N ∧ 2 * |q| = N) → Spec.coefC N u p * Spec.coefC N v q = 0 := by
          intro p q h hz
          by_contra hne
          have h1 := coefC_support N u p (left_ne_zero_of_mul hne)
          have h2 := coefC_support N v q (right_ne_zero_of_mul hne)
          have := abs_le.1 (le_refl |p|)
          have := abs_le.1 (le_refl |q|)
          omega
        rw [z p q (Or.inl h) hz, z (-p) (-q) (Or.inr (by omega)) (by rwa [abs_neg, abs_neg])]
    · rw [if_neg h, if_neg (by omega)]
  have hdef : ∀ w : ℕ → ℂ, Spec.coefC (2 * N) w k = if |k| < N then w (k % ((2 * N : ℕ) : ℤ)).toNat else if |k| = N then w N / 2 else 0 := by
    intro w
    unfold Spec.coefC
    have e1 : (2 * |k| < ((2 * N : ℕ) : ℤ)) ↔ |k| < N := by push_cast; omega
    have e2 : (2 * |k| = ((2 * N : ℕ) : ℤ)) ↔ |k| = N := by push_cast; omega
    simp only [e1, e2, show 2 * N / 2 = N by omega]
  rw [hdef]
  have hk := abs_le.1 (le_refl |k|)
  by_cases h1 : |k| < N
  · rw [if_pos h1, directC2C_sum N hN, Option.getD_none, zero_add]
    refine Finset.sum_congr rfl fun p _ => Finset.sum_congr rfl fun q _ => ?_
    by_cases hz : Spec.coefC N u p * Spec.coefC N v q = 0
    · rw [hz]; simp
    · have h2 := abs_le.1 (supp p q hz)
      have hmod : (k % ((2 * N : ℕ) : ℤ)).toNat = if k < 0 then (k + 2 * N).toNat else k.toNat := by
        split_ifs with h0
        · rw [← Int.add_emod_right, Int.emod_eq_of_lt (by push_cast; omega) (by push_cast; omega)]; push_cast; rfl
        · rw [Int.emod_eq_of_lt (by omega) (by push_cast; omega)]
      have : (pyIdx (2 * N) (p + q) = (k % ((2 * N : ℕ) : ℤ)).toNat) = (p + q = k) := by
        rw [hmod]
        unfold pyIdx
        push_cast
        exact propext (by split_ifs <;> omega)
      simp only [this]
  · rw [if_neg h1]
    by_cases h2 : |k| = N
    · rw [if_pos h2, directC2C_sum N hN, Option.getD_none, zero_add]
      have e : ∑ p ∈ Finset.Icc (-(N:ℤ)) N, ∑ q ∈ Finset.Icc (-(N:ℤ)) N,
          (if pyIdx (2 * N) (p + q) = N then Spec.coefC N u p * Spec.coefC N v q else 0) =
          ∑ p ∈ Finset.Icc (-(N:ℤ)) N, ∑ q ∈ Finset.Icc (-(N:ℤ)) N,
            (if p + q = (N:ℤ) then Spec.coefC N u p * Spec.coefC N v q else 0) +
          ∑ p ∈ Finset.Icc (-(N:ℤ)) N, ∑ q ∈ Finset.Icc (-(N:ℤ)) N,
            (if p + q = -(N:ℤ) then Spec.coefC N u p * Spec.coefC N v q else 0) := by
        rw [← Finset.sum_add_distrib]
        refine Finset.sum_congr rfl fun p _ => ?_
        rw [← Finset.sum_add_distrib]
        refine Finset.sum_congr rfl fun q _ => ?_
        by_cases hz : Spec.coefC N u p * Spec.coefC N v q = 0
        · rw [hz]; simp
        · have h2 := abs_le.1 (supp p q hz)
          by_cases ha : p + q = N
          · rw [if_pos ha, if_neg (show ¬ p + q = -(N:ℤ) by omega),
              if_pos (show pyIdx (2 * N) (p + q) = N by unfold pyIdx; rw [if_neg (by omega)]; omega), add_zero]
          · by_cases hb : p + q = -(N:ℤ)
            · rw [if_neg ha, if_pos hb, if_pos (show pyIdx (2 * N) (p + q) = N by unfold pyIdx; push_cast; rw [if_pos (by omega)]; omega), zero_add]
            · rw [if_neg ha, if_neg hb, if_neg (show ¬ pyIdx (2 * N) (p + q) = N by unfold pyIdx; push_cast; split_ifs <;> omega), add_zero]
      rw [e]
      rcases (show k = N ∨ k = -(N:ℤ) by rcases abs_cases k with h | h <;> omega) with h | h
      · rw [h, ← sym]; ring
      · rw [h, ← sym]; ring
    · rw [if_neg h2]
      symm
      refine Finset.sum_eq_zero fun p _ => Finset.sum_eq_zero fun q _ => ?_
      by_cases hz : Spec.coefC N u p * Spec.coefC N v q = 0
      · rw [hz]; simp
      · have := supp p q hz
        rw [if_neg (by rintro rfl; omega)]

/-- **C83** (real) Position `p` of the result is the coefficient of wavenumber `p` of the product of the two real functions, `0 ≤ p ≤ N`.
The coefficients of the constants and (for even `N`) of the Nyquist modes must be real, as those of a real function are. -/
theorem C83_R2C (N : ℕ) (hN : 1 ≤ N) (u v : ℕ → ℂ) (hu0 : (u 0).im = 0) (hu : N % 2 = 0 → (u (N / 2)).im = 0)
    (hv0 : (v 0).im = 0) (hv : N % 2 = 0 → (v (N / 2)).im = 0) (p : ℕ) :
    directR2C N u v none p = Spec.conv N (Spec.coefR N u) (Spec.coefR N v) p := by
  rw [directR2C_sum N hN u v hu0 hu hv0 hv, Option.getD_none, zero_add]
  exact conv_eq_sum N _ _ (fun k hk => by have := coefR_support N v k hk; omega) p

/-- `Spec.conv` gives the coefficients of the product of the functions (value by value). -/
theorem C83_product (N : ℕ) (c d : ℤ → ℂ) (hc : ∀ k, c k ≠ 0 → 2 * |k| ≤ N) (hd : ∀ k, d k ≠ 0 → 2 * |k| ≤ N) (x : ℝ) :
    Spec.trig N (Spec.conv N c d) x = Spec.trig N c x * Spec.trig N d x := by
  unfold Spec.trig
  have e : ∀ k, Spec.conv N c d k * exp (I * k * x) =
      ∑ p ∈ Finset.Icc (-(N:ℤ)) N, ∑ q ∈ Finset.Icc (-(N:ℤ)) N, if p + q = k then c p * d q * exp (I * (p + q : ℤ) * x) else 0 := by
    intro k
    rw [← conv_eq_sum N c d (fun k hk => by have := hd k hk; omega), Finset.sum_mul]
    refine Finset.sum_congr rfl fun p _ => ?_
    rw [Finset.sum_mul]
    refine Finset.sum_congr rfl fun q _ => ?_
    split_ifs with h
    · rw [h]
    · rw [zero_mul]
  simp only [e]
  rw [Finset.sum_comm, Finset.sum_mul_sum]
  refine Finset.sum_congr rfl fun p _ => ?_
  rw [Finset.sum_comm]
  refine Finset.sum_congr rfl fun q _ => ?_
  rw [Finset.sum_ite_eq]
  by_cases hz : c p * d q = 0
  · rw [hz]
    have : c p * exp (I * p * x) * (d q * exp (I * q * x)) = 0 := by
      rw [mul_mul_mul_comm, hz, zero_mul]
    rw [this]; simp
  · have h1 := hc p (left_ne_zero_of_mul hz)
    have h2 := hd q (right_ne_zero_of_mul hz)
    have := abs_le.1 (show |p + q| ≤ N by have := abs_add_le p q; omega)
    rw [if_pos (Finset.mem_Icc.2 this), mul_mul_mul_comm, ← Complex.exp_add]
    congr 2
    push_cast; ring

/-- **C83** The returned coefficients, seen as a function, are the product of the two functions at every point. -/
theorem C83_C2C_values (N : ℕ) (hN : 1 ≤ N) (u v : ℕ → ℂ) (x : ℝ) :
    Spec.trig N (Spec.coefC (2 * N) (directC2C N u v none)) x = Spec.trig N (Spec.coefC N u) x * Spec.trig N (Spec.coefC N v) x := by
  rw [← C83_product N _ _ (coefC_support N u) (coefC_support N v)]
  unfold Spec.trig
  exact Finset.sum_congr rfl fun k _ => by rw [C83_C2C N hN]

/-- **C83** Both ways of computing agree: with enough padding `fast=True` and `fast=False` give the same coefficients below Nyquist. -/
theorem C83_fast_eq_direct (N M : ℕ) (hN : 2 ≤ N) (hM : N < M) (hpad : 3 * N ≤ 2 * M + 1) (u v : ℕ → ℂ) (k : ℤ) (hk : 2 * |k| < N) :
    convolveC2C N M u v (pos N k) = Spec.coefC (2 * N) (directC2C N u v none) k := by
  rw [C21_C2C N M hN hM hpad u v k hk, C83_C2C N (by omega)]

theorem C83_fast_eq_direct_R2C (N M : ℕ) (hN : 1 ≤ N) (hM : N < M) (hpad : 3 * N ≤ 2 * M + 1) (u v : ℕ → ℂ)
    (hu0 : (u 0).im = 0) (hu : N % 2 = 0 → (u (N / 2)).im = 0) (hv0 : (v 0).im = 0) (hv : N % 2 = 0 → (v (N / 2)).im = 0)
    (k : ℕ) (hk : 2 * k < N) : convolveR2C N M u v k = directR2C N u v none k := by
  rw [C21_R2C N M hN hM hpad u v k hk, C83_R2C N hN u v hu0 hu hv0 hv]

/-- **C83** (refutation) A given output array is added to, not overwritten: the second of two identical calls into the same array returns
twice the coefficients. -/
theorem C83_accumulates (N : ℕ) (hN : 1 ≤ N) (u v uv : ℕ → ℂ) (i : ℕ) :
    directC2C N u v (some uv) i = uv i + directC2C N u v none i := by
  rw [directC2C_sum N hN, directC2C_sum N hN, Option.getD_none, Option.getD_some, zero_add]

theorem C83_accumulates_R2C (N : ℕ) (hN : 1 ≤ N) (u v uv : ℕ → ℂ) (hu0 : (u 0).im = 0) (hu : N % 2 = 0 → (u (N / 2)).im = 0)
    (hv0 : (v 0).im = 0) (hv : N % 2 = 0 → (v (N / 2)).im = 0) (i : ℕ) :
    directR2C N u v (some uv) i = uv i + directR2C N u v none i := by
  rw [directR2C_sum N hN u v hu0 hu hv0 hv, directR2C_sum N hN u v hu0 hu hv0 hv, Option.getD_none, Option.getD_some, zero_add]

/-- **C83** (refutation) The check in the fast version, `padding_factor > 1`, does not prevent aliasing: with 5 coefficients padded to 6
points (`padding_factor = 1.2`) the square `exp(4ix)` of `exp(2ix)` appears at wavenumber -2. -/
theorem C83_padding_check_too_weak : ∃ u v : ℕ → ℂ,
    convolveC2C 5 6 u v (pos 5 (-2)) ≠ Spec.conv 5 (Spec.coefC 5 u) (Spec.coefC 5 v) (-2) := by
  refine ⟨fun i => if i = 2 then 1 else 0, fun i => if i = 2 then 1 else 0, ?_⟩
  rw [convolveC2C, truncC2C_low 5 6 (by omega) (by omega) _ (-2) (by norm_num)]
  simp only [C19_values_C2C 5 6 (by omega) (by omega)]
  rw [dft_product 6 (by omega)]
  have hc : ∀ k : ℤ, Spec.coefC 5 (fun i => if i = 2 then 1 else 0) k = if k = 2 then 1 else 0 := by
    intro k
    unfold Spec.coefC
    by_cases h : 2 * |k| < (5:ℕ)
    · rw [if_pos h]
      have := abs_lt.1 (show |k| < 3 by push_cast at h; omega)
      rcases (show k = -2 ∨ k = -1 ∨ k = 0 ∨ k = 1 ∨ k = 2 by omega) with rfl | rfl | rfl | rfl | rfl <;> norm_num <;> decide
    · have : k ≠ 2 := by rintro rfl; exact h (by norm_num)
      rw [if_neg h, if_neg (by omega), if_neg this]
  unfold Spec.conv
  simp only [hc]
  rw [show Finset.Icc (-((5:ℕ):ℤ)) ((5:ℕ):ℤ) = {-5, -4, -3, -2, -1, 0, 1, 2, 3, 4, 5} by decide]
  norm_num [Finset.sum_insert, pos]

/-- Non-vacuity: `cos(x)² = 1/2 + cos(2x)/2` with three real coefficients `(0, 1/2, 0)`, four points. -/
example : directR2C 4 (fun i => if i = 1 then 1 / 2 else 0) (fun i => if i = 1 then 1 / 2 else 0) none 2 = 1 / 4 := by
  rw [C83_R2C 4 (by omega) _ _ (by simp) (by simp) (by simp) (by simp), Spec.conv]
  rw [show Finset.Icc (-((4:ℕ):ℤ)) ((4:ℕ):ℤ) = {-4, -3, -2, -1, 0, 1, 2, 3, 4} by decide]
  norm_num [Spec.coefR, Finset.sum_insert]

end Convolve

end Shenfun
