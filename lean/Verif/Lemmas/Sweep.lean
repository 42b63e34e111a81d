import Verif.Lemmas.LU

namespace Shenfun

variable {K : Type*}

theorem forN_add {S : Type*} (f : ℕ → S → S) (s : S) (a b : ℕ) :
    forN f s (a + b) = forN (fun k => f (a + k)) (forN f s a) b := by
  induction b with
  | zero => rfl
  | succ b ih => rw [← Nat.add_assoc, forN_succ, ih]; rfl

theorem forN_congr {S : Type*} {f g : ℕ → S → S} (s : S) (n : ℕ)
    (h : ∀ k < n, ∀ t, f k t = g k t) : forN f s n = forN g s n := by
  induction n with
  | zero => rfl
  | succ n ih =>
    rw [forN_succ, forN_succ, ih (fun k hk => h k (by omega)), h n (by omega)]

/-- A descending sweep over `c + m` indices: the first `c` explicitly, then the rest. -/
theorem sweep_down_split (G : ℕ → (ℕ → K) → K) (y : ℕ → K) (m c : ℕ) :
    forN (fun k u => Function.update u (m+c-1-k) (G (m+c-1-k) u)) y (c+m) =
    forN (fun k u => Function.update u (m-1-k) (G (m-1-k) u))
      (forN (fun k u => Function.update u (m+c-1-k) (G (m+c-1-k) u)) y c) m := by
  rw [forN_add]
  apply forN_congr
  intro k hk t
  have : m + c - 1 - (c + k) = m - 1 - k := by omega
  rw [this]

/-- An ascending sweep from `lo` over `c + m` indices: the first `c` explicitly, then the rest. -/
theorem sweep_up_split (G : ℕ → (ℕ → K) → K) (y : ℕ → K) (lo m c : ℕ) :
    forN (fun k u => Function.update u (lo+k) (G (lo+k) u)) y (c+m) =
    forN (fun k u => Function.update u (lo+c+k) (G (lo+c+k) u))
      (forN (fun k u => Function.update u (lo+k) (G (lo+k) u)) y c) m := by
  rw [forN_add]
  apply forN_congr
  intro k hk t
  rw [Nat.add_assoc]

variable [Field K]

/-- One row of back substitution with upper diagonals at 2, 4, 6, 8. -/
def backRow (n : ℕ) (d e f g h : ℕ → K) (i : ℕ) (u : ℕ → K) : K :=
  (u i - (if i + 2 < n then e (i+2) * u (i+2) else 0) - (if i + 4 < n then f (i+4) * u (i+4) else 0)
    - (if i + 6 < n then g (i+6) * u (i+6) else 0) - (if i + 8 < n then h (i+8) * u (i+8) else 0)) / d i

/-- Complete back substitution. -/
def backSub (n : ℕ) (d e f g h : ℕ → K) (y : ℕ → K) : ℕ → K :=
  forN (fun k u => Function.update u (n-1-k) (backRow n d e f g h (n-1-k) u)) y n

/-- Complete forward substitution with lower diagonals at 2, 4. -/
def fwdRow (l1 l2 : ℕ → K) (i : ℕ) (u : ℕ → K) : K :=
  u i - ((if 2 ≤ i then l1 (i-2) * u (i-2) else 0) + (if 4 ≤ i then l2 (i-4) * u (i-4) else 0))

def fwdSub (n : ℕ) (l1 l2 : ℕ → K) (b : ℕ → K) : ℕ → K :=
  forN (fun k u => Function.update u (2+k) (fwdRow l1 l2 (2+k) u)) b (n-2)

theorem backSub_spec (n : ℕ) (d e f g h : ℕ → K) (hd : ∀ i < n, d i ≠ 0) (y : ℕ → K) :
    (∀ i < n, Spec.mulVec n (bandU 2 4 6 8 d e f g h) (backSub n d e f g h y) i = y i) ∧
    ∀ i, n ≤ i → backSub n d e f g h y i = y i := by
  obtain ⟨h1, h2⟩ := forN_sweep_down n (backRow n d e f g h) y n le_rfl
  refine ⟨fun i hi => ?_, fun i hi => h1 i (Or.inl hi)⟩
  obtain ⟨s', a1, a2, a3⟩ := h2 i (by omega) hi
  unfold Spec.mulVec
  rw [sum_bandU n _ _ _ _ _ _ _ _ _ i hi]
  have hb : backSub n d e f g h y i = backRow n d e f g h i s' := a3
  have e2 : s' (i+2) = backSub n d e f g h y (i+2) := a1 _ (by omega)
  have e4 : s' (i+4) = backSub n d e f g h y (i+4) := a1 _ (by omega)
  have e6 : s' (i+6) = backSub n d e f g h y (i+6) := a1 _ (by omega)
  have e8 : s' (i+8) = backSub n d e f g h y (i+8) := a1 _ (by omega)
  rw [hb, backRow, e2, e4, e6, e8, a2 i le_rfl]
  have := hd i hi
  field_simp
  ring

theorem fwdSub_spec (n : ℕ) (l1 l2 : ℕ → K) (b : ℕ → K) :
    (∀ i < n, Spec.mulVec n (bandL 2 4 l1 l2) (fwdSub n l1 l2 b) i = b i) ∧
    ∀ i, n ≤ i → fwdSub n l1 l2 b i = b i ∨ i < 2 := by
  obtain ⟨h1, h2⟩ := forN_sweep_up 2 (fwdRow l1 l2) b (n-2)
  refine ⟨fun i hi => ?_, fun i hi => ?_⟩
  · unfold Spec.mulVec
    rw [sum_bandL n _ _ _ _ i hi]
    by_cases hi2 : 2 ≤ i
    · obtain ⟨s', a1, a2, a3⟩ := h2 i hi2 (by omega)
      have hb : fwdSub n l1 l2 b i = fwdRow l1 l2 i s' := a3
      have e2 : s' (i-2) = fwdSub n l1 l2 b (i-2) := a1 _ (by omega)
      have e4 : s' (i-4) = fwdSub n l1 l2 b (i-4) := a1 _ (by omega)
      rw [hb, fwdRow, e2, e4, a2 i le_rfl]
      ring
    · have : fwdSub n l1 l2 b i = b i := h1 i (by omega)
      rw [this]; ifs; ring
  · by_cases h : i < 2
    · exact Or.inr h
    · exact Or.inl (h1 i (by omega))

theorem fwdSub_ge (n : ℕ) (l1 l2 : ℕ → K) (b : ℕ → K) (i : ℕ) (hi : n ≤ i) : fwdSub n l1 l2 b i = b i := by
  obtain ⟨h1, -⟩ := forN_sweep_up 2 (fwdRow l1 l2) b (n-2)
  exact h1 i (by omega)

end Shenfun
