import Verif.Model.Utilities
import Verif.Model.Fourier
import Verif.Props.Fourier
import Mathlib.Tactic.Ring
import Mathlib.Tactic.FieldSimp
import Mathlib.Tactic.Linarith
import Mathlib.Tactic.NormNum
import Mathlib.Algebra.BigOperators.Intervals
import Mathlib.Algebra.BigOperators.Field

/-!
# C22 domain maps, C23 `energy_fourier`, C24 `outer`, C25 `cross`, C39 `wrap_periodic`, C40 work arrays
-/

set_option linter.unusedSimpArgs false
set_option linter.unusedVariables false

namespace Shenfun

/-! ## C22 -/

section Domain

variable {K : Type*} [Field K] [LinearOrder K] [IsStrictOrderedRing K]

theorem domainFactor_ne (dom ref : Domain K) (h1 : dom.lower < dom.upper) (h2 : ref.lower < ref.upper) :
    domainFactor dom ref ≠ 0 := by
  simp only [domainFactor]
  split_ifs
  · exact one_ne_zero
  · exact div_ne_zero (by linarith) (by linarith)

/-- **C22** The maps are inverse to each other. -/
theorem C22_inverse (dom ref : Domain K) (h1 : dom.lower < dom.upper) (h2 : ref.lower < ref.upper) (x : K) :
    mapTrueDomain dom ref (mapReferenceDomain dom ref x) = x ∧
    mapReferenceDomain dom ref (mapTrueDomain dom ref x) = x := by
  have := domainFactor_ne dom ref h1 h2
  simp only [mapTrueDomain, mapReferenceDomain]
  split_ifs
  · exact ⟨rfl, rfl⟩
  · constructor <;> field_simp <;> ring

/-- **C22** The map to the reference domain is affine with slope `domain_factor`. -/
theorem C22_affine (dom ref : Domain K) (h1 : dom.lower < dom.upper) (x y : K) :
    mapReferenceDomain dom ref x - mapReferenceDomain dom ref y = domainFactor dom ref * (x - y) := by
  simp only [mapReferenceDomain]
  split_ifs with h
  · subst h
    simp [domainFactor]
  · ring

/-- **C22** The left end point is mapped to the left end point; the right one to the right one, exactly if
the lengths are equal or differ by at least `1e-12`, and with an error below `1e-12` otherwise. -/
theorem C22_ends (dom ref : Domain K) (h1 : dom.lower < dom.upper) :
    mapReferenceDomain dom ref dom.lower = ref.lower ∧
    |mapReferenceDomain dom ref dom.upper - ref.upper| < 1 / 10 ^ 12 ∧
    (1 / 10 ^ 12 ≤ |(dom.upper - dom.lower) - (ref.upper - ref.lower)| ∨
      dom.upper - dom.lower = ref.upper - ref.lower → mapReferenceDomain dom ref dom.upper = ref.upper) := by
  have hL : dom.upper - dom.lower ≠ 0 := by linarith
  have hpos : (0 : K) < 1 / 10 ^ 12 := by positivity
  simp only [mapReferenceDomain]
  split_ifs with h
  · subst h; simp only [sub_self, abs_zero]; exact ⟨trivial, hpos, fun _ => trivial⟩
  · simp only [domainFactor]
    split_ifs with h2
    · refine ⟨by ring, ?_, ?_⟩
      · rw [show ref.lower + (dom.upper - dom.lower) * 1 - ref.upper
          = dom.upper - dom.lower - (ref.upper - ref.lower) by ring]
        exact h2
      · rintro (h3 | h3)
        · exact absurd h2 (not_lt.2 h3)
        · linear_combination h3
    · have e : ref.lower + (dom.upper - dom.lower) * ((ref.upper - ref.lower) / (dom.upper - dom.lower)) = ref.upper := by
        field_simp; ring
      refine ⟨by ring, ?_, fun _ => e⟩
      rw [e, sub_self, abs_zero]
      exact hpos

/-- Non-vacuity: from `[0, 4]` to `[-1, 1]`. -/
example : mapReferenceDomain (⟨0, 4⟩ : Domain ℚ) ⟨-1, 1⟩ 3 = 1 / 2 ∧ mapTrueDomain (⟨0, 4⟩ : Domain ℚ) ⟨-1, 1⟩ (1 / 2) = 3 := by
  constructor <;> decide +kernel

end Domain

/-! ## C24 -/

section Products

variable {K : Type*} [CommRing K]

/-- **C24** (two components, both implementations).  Every component of the output is set, whatever it
contained before. -/
theorem C24_outer2D (a b c : ℕ → K) (same : Bool) (h : same = true → a = b) (i j : ℕ) (hi : i < 2) (hj : j < 2) :
    outer 2 a b c same (i * 2 + j) = a i * b j ∧ outer2DCython a b c same (i * 2 + j) = a i * b j := by
  have : i = 0 ∨ i = 1 := by omega
  have : j = 0 ∨ j = 1 := by omega
  cases same
  · rcases ‹i = 0 ∨ i = 1› with rfl | rfl <;> rcases ‹j = 0 ∨ j = 1› with rfl | rfl <;>
      simp [outer, outer2D, outer2DCython, Function.update_apply]
  · obtain rfl := h rfl
    rcases ‹i = 0 ∨ i = 1› with rfl | rfl <;> rcases ‹j = 0 ∨ j = 1› with rfl | rfl <;>
      simp [outer, outer2D, outer2DCython, Function.update_apply] <;> ring

/-- **C24** (three components, different arrays): correct. -/
theorem C24_outer3D_partial (a b c : ℕ → K) (i j : ℕ) (hi : i < 3) (hj : j < 3) :
    outer 3 a b c false (i * 3 + j) = a i * b j := by
  have : i = 0 ∨ i = 1 ∨ i = 2 := by omega
  have : j = 0 ∨ j = 1 ∨ j = 2 := by omega
  rcases ‹i = 0 ∨ _› with rfl | rfl | rfl <;> rcases ‹j = 0 ∨ _› with rfl | rfl | rfl <;>
      simp [outer, outer3D, Function.update_apply]

/-- **C24** (three components, Cython): correct in all cases. -/
theorem C24_outer3DCython (a b c : ℕ → K) (same : Bool) (h : same = true → a = b) (i j : ℕ) (hi : i < 3) (hj : j < 3) :
    outer3DCython a b c same (i * 3 + j) = a i * b j := by
  have : i = 0 ∨ i = 1 ∨ i = 2 := by omega
  have : j = 0 ∨ j = 1 ∨ j = 2 := by omega
  cases same
  · rcases ‹i = 0 ∨ _› with rfl | rfl | rfl <;> rcases ‹j = 0 ∨ _› with rfl | rfl | rfl <;>
      simp [outer3DCython, Function.update_apply]
  · obtain rfl := h rfl
    rcases ‹i = 0 ∨ _› with rfl | rfl | rfl <;> rcases ‹j = 0 ∨ _› with rfl | rfl | rfl <;>
      simp [outer3DCython, Function.update_apply] <;> ring

/-- What the default implementation does for `outer(a, a, c)` with three components: all entries are correct
except number 7, which receives the previous content of entry 5. -/
theorem C24_outer3D_symmetric (a c : ℕ → K) (i j : ℕ) (hi : i < 3) (hj : j < 3) :
    outer 3 a a c true (i * 3 + j) = if i = 2 ∧ j = 1 then c 5 else a i * a j := by
  have : i = 0 ∨ i = 1 ∨ i = 2 := by omega
  have : j = 0 ∨ j = 1 ∨ j = 2 := by omega
  rcases ‹i = 0 ∨ _› with rfl | rfl | rfl <;> rcases ‹j = 0 ∨ _› with rfl | rfl | rfl <;>
      simp [outer, outer3D, Function.update_apply] <;> ring

/-- The full statement of C24. -/
def C24Full (K : Type*) [CommRing K] : Prop := ∀ (n : ℕ) (a b c : ℕ → K) (same : Bool), (n = 2 ∨ n = 3) →
  (same = true → a = b) → ∀ i < n, ∀ j < n, outer n a b c same (i * n + j) = a i * b j

theorem C24_full_refuted : ¬ C24Full ℤ := by
  intro h
  have := h 3 (fun _ => 1) (fun _ => 1) (fun _ => 0) true (Or.inr rfl) (fun _ => rfl) 2 (by omega) 1 (by omega)
  rw [C24_outer3D_symmetric _ _ 2 1 (by omega) (by omega)] at this
  simp at this

/-! ## C25 -/

/-- **C25** Three components on a mesh of other than two dimensions: orthogonal to both arguments, antisymmetric,
bilinear, with the norm given by Lagrange's identity (so it is the cross product up to orientation), and the
right orientation on the first two unit vectors. -/
theorem C25_cross3D (ndim : ℕ) (hn : ndim ≠ 3) (c a b : ℕ → K) :
    (∑ i ∈ Finset.range 3, a i * cross ndim c a b i = 0) ∧
    (∑ i ∈ Finset.range 3, b i * cross ndim c a b i = 0) ∧
    (∀ i < 3, cross ndim c b a i = - cross ndim c a b i) ∧
    (∀ (s t : K) (d : ℕ → K), ∀ i < 3,
      cross ndim c (fun j => s * a j + t * d j) b i = s * cross ndim c a b i + t * cross ndim c d b i) ∧
    (∑ i ∈ Finset.range 3, cross ndim c a b i ^ 2 =
      (∑ i ∈ Finset.range 3, a i ^ 2) * (∑ i ∈ Finset.range 3, b i ^ 2) - (∑ i ∈ Finset.range 3, a i * b i) ^ 2) := by
  have e : ∀ a b : ℕ → K, cross ndim c a b = cross3D c a b := by
    intro a b; simp only [cross, if_neg hn, ite_self]
  simp only [e, Finset.sum_range_succ, Finset.sum_range_zero]
  refine ⟨?_, ?_, ?_, ?_, ?_⟩
  · simp [cross3D, Function.update_apply]; ring
  · simp [cross3D, Function.update_apply]; ring
  · intro i hi
    have : i = 0 ∨ i = 1 ∨ i = 2 := by omega
    rcases this with rfl | rfl | rfl <;> simp [cross3D, Function.update_apply] <;> ring
  · intro s t d i hi
    have : i = 0 ∨ i = 1 ∨ i = 2 := by omega
    rcases this with rfl | rfl | rfl <;> simp [cross3D, Function.update_apply] <;> ring
  · simp [cross3D, Function.update_apply]; ring

/-- The cross product by its definition with the Levi-Civita symbol. -/
def Spec.leviCivita (i j k : ℕ) : ℤ := ((j : ℤ) - i) * ((k : ℤ) - i) * ((k : ℤ) - j) / 2

/-- **C25** Component `i` is `∑ ε_ijk a_j b_k`. -/
theorem C25_cross3D_levi (ndim : ℕ) (hn : ndim ≠ 3) (c a b : ℕ → K) (i : ℕ) (hi : i < 3) :
    cross ndim c a b i = ∑ j ∈ Finset.range 3, ∑ k ∈ Finset.range 3, (Spec.leviCivita i j k : K) * a j * b k := by
  have e : cross ndim c a b = cross3D c a b := by simp only [cross, if_neg hn, ite_self]
  rw [e]
  simp only [Finset.sum_range_succ, Finset.sum_range_zero]
  have : i = 0 ∨ i = 1 ∨ i = 2 := by omega
  rcases this with rfl | rfl | rfl <;> norm_num [cross3D, Function.update_apply, Spec.leviCivita] <;> ring

/-- **C25** Two components on a two-dimensional mesh. -/
theorem C25_cross2D (c a b : ℕ → K) (i : ℕ) : cross 3 c a b i = a 0 * b 1 - a 1 * b 0 := by
  simp [cross, cross2D]

/-- Vectors of three components on a two-dimensional mesh (a surface in space) get the two-dimensional formula:
the result is not the cross product. -/
theorem C25_surface_refuted :
    ¬ ∀ (ndim : ℕ) (c a b : ℕ → ℤ), ∑ i ∈ Finset.range 3, a i * cross ndim c a b i = 0 := by
  intro h
  have := h 3 (fun _ => 0) (fun i => if i = 0 then 1 else 0) (fun i => if i = 1 then 1 else 0)
  simp [cross, cross2D, Finset.sum_range_succ] at this

end Products

/-! ## C23 -/

/-- Sum of the energies of all wavenumbers `0 ≤ k < N` of the full complex spectrum along the real-to-complex
axis, given those of the stored ones: `k` and `N-k` have the same energy. -/
noncomputable def Spec.fullEnergy (N : ℕ) (e : ℕ → ℝ) : ℝ := ∑ k ∈ Finset.range N, e (min k (N - k))

theorem fullEnergy_even (n : ℕ) (hn : 1 ≤ n) (e : ℕ → ℝ) :
    Spec.fullEnergy (2 * n) e = e 0 + 2 * ∑ k ∈ Finset.Ico 1 n, e k + e n := by
  rw [Spec.fullEnergy, Finset.range_eq_Ico, ← Finset.sum_Ico_consecutive _ (Nat.zero_le 1) (by omega : 1 ≤ 2 * n),
    ← Finset.sum_Ico_consecutive _ hn (by omega : n ≤ 2 * n), ← Finset.sum_Ico_consecutive _ (by omega : n ≤ n + 1) (by omega : n + 1 ≤ 2 * n)]
  have h1 : ∑ k ∈ Finset.Ico 1 n, e (min k (2 * n - k)) = ∑ k ∈ Finset.Ico 1 n, e k := by
    apply Finset.sum_congr rfl; intro k hk
    rw [Finset.mem_Ico] at hk
    congr 1; omega
  have h2 : ∑ k ∈ Finset.Ico (n + 1) (2 * n), e (min k (2 * n - k)) = ∑ k ∈ Finset.Ico 1 n, e k := by
    have := Finset.sum_Ico_reflect e 1 (m := n) (n := 2 * n - 1) (by omega)
    rw [show 2 * n - 1 + 1 - n = n by omega, show 2 * n - 1 + 1 - 1 = 2 * n - 1 by omega] at this
    apply Finset.sum_nbij' (fun k => 2 * n - k) (fun k => 2 * n - k)
    · intro k hk; rw [Finset.mem_Ico] at *; omega
    · intro k hk; rw [Finset.mem_Ico] at *; omega
    · intro k hk; rw [Finset.mem_Ico] at *; omega
    · intro k hk; rw [Finset.mem_Ico] at *; omega
    · intro k hk; rw [Finset.mem_Ico] at *; congr 1; omega
  rw [h1, h2]
  simp only [Nat.Ico_succ_singleton, Finset.sum_singleton]
  rw [show min n (2 * n - n) = n by omega, show min 0 (2 * n - 0) = 0 by omega]
  ring

theorem fullEnergy_odd (n : ℕ) (e : ℕ → ℝ) :
    Spec.fullEnergy (2 * n + 1) e = e 0 + 2 * ∑ k ∈ Finset.Ico 1 (n + 1), e k := by
  rw [Spec.fullEnergy, Finset.range_eq_Ico, ← Finset.sum_Ico_consecutive _ (Nat.zero_le 1) (by omega : 1 ≤ 2 * n + 1),
    ← Finset.sum_Ico_consecutive _ (by omega : 1 ≤ n + 1) (by omega : n + 1 ≤ 2 * n + 1)]
  have h1 : ∑ k ∈ Finset.Ico 1 (n + 1), e (min k (2 * n + 1 - k)) = ∑ k ∈ Finset.Ico 1 (n + 1), e k := by
    apply Finset.sum_congr rfl; intro k hk
    rw [Finset.mem_Ico] at hk
    congr 1; omega
  have h2 : ∑ k ∈ Finset.Ico (n + 1) (2 * n + 1), e (min k (2 * n + 1 - k)) = ∑ k ∈ Finset.Ico 1 (n + 1), e k := by
    apply Finset.sum_nbij' (fun k => 2 * n + 1 - k) (fun k => 2 * n + 1 - k)
    · intro k hk; rw [Finset.mem_Ico] at *; omega
    · intro k hk; rw [Finset.mem_Ico] at *; omega
    · intro k hk; rw [Finset.mem_Ico] at *; omega
    · intro k hk; rw [Finset.mem_Ico] at *; omega
    · intro k hk; rw [Finset.mem_Ico] at *; congr 1; omega
  rw [h1, h2, show Finset.Ico 0 1 = {0} from rfl, Finset.sum_singleton, show min 0 (2 * n + 1 - 0) = 0 by omega]
  ring

/-- The processes own consecutive pieces of `[a, n)`, each with at least `l` wavenumbers. -/
def Spec.Partition (l : ℕ) : ℕ → ℕ → List (ℕ × ℕ) → Prop
  | a, n, [] => a = n
  | a, n, c :: cs => c.1 = a ∧ a + l ≤ c.2 ∧ c.2 ≤ n ∧ Spec.Partition l c.2 n cs

theorem partition_le (l a n : ℕ) (cs : List (ℕ × ℕ)) (h : Spec.Partition l a n cs) : a ≤ n := by
  cases cs with
  | nil => exact h.le
  | cons c cs => obtain ⟨_, h2, h3, _⟩ := h; omega

/-- Weight of a stored wavenumber. -/
private noncomputable def wgt (N : ℕ) (k : ℕ) : ℝ := if k = 0 ∨ 2 * k = N then 1 else 2

theorem energyLocal_eq (N : ℕ) (hN : 2 ≤ N) (e : ℕ → ℝ) (a b : ℕ) (hab : a + (if N % 2 = 0 then 2 else 1) ≤ b)
    (hb : b ≤ N / 2 + 1) : energyLocal N e (a, b) = ∑ k ∈ Finset.Ico a b, wgt N k * e k := by
  by_cases hm : N % 2 = 0
  · rw [if_pos hm] at hab
    simp only [energyLocal, if_pos hm]
    have hmid : ∑ k ∈ Finset.Ico (a + 1) (b - 1), wgt N k * e k = 2 * ∑ k ∈ Finset.Ico (a + 1) (b - 1), e k := by
      rw [Finset.mul_sum]
      apply Finset.sum_congr rfl; intro k hk
      rw [Finset.mem_Ico] at hk
      rw [wgt, if_neg (by omega)]
    rw [Finset.sum_eq_sum_Ico_succ_bot (by omega : a < b), show b = (b - 1) + 1 by omega,
      Finset.sum_Ico_succ_top (by omega : a + 1 ≤ b - 1), hmid]
    simp only [Nat.add_sub_cancel, wgt]
    have c1 : (a = 0 ∨ 2 * a = N) ↔ a = 0 := by omega
    have c2 : (b - 1 = 0 ∨ 2 * (b - 1) = N) ↔ b - 1 + 1 = N / 2 + 1 := by omega
    simp only [c1, c2]
    split_ifs <;> ring
  · rw [if_neg hm] at hab
    simp only [energyLocal, if_neg hm]
    have hmid : ∑ k ∈ Finset.Ico (a + 1) b, wgt N k * e k = 2 * ∑ k ∈ Finset.Ico (a + 1) b, e k := by
      rw [Finset.mul_sum]
      apply Finset.sum_congr rfl; intro k hk
      rw [Finset.mem_Ico] at hk
      rw [wgt, if_neg (by omega)]
    rw [Finset.sum_eq_sum_Ico_succ_bot (by omega : a < b), hmid]
    have c1 : (a = 0 ∨ 2 * a = N) ↔ a = 0 := by omega
    simp only [c1, wgt]
    split_ifs <;> ring

/-- **C23** (distributed).  If every process has at least two wavenumbers of the real-to-complex axis (at least
one for odd `N`), the energy summed over all processes is that of the full spectrum. -/
theorem C23_distributed_partial (N : ℕ) (hN : 2 ≤ N) (e : ℕ → ℝ) (chunks : List (ℕ × ℕ))
    (h : Spec.Partition (if N % 2 = 0 then 2 else 1) 0 (N / 2 + 1) chunks) :
    energyR2C N e chunks = Spec.fullEnergy N e := by
  have key : ∀ (cs : List (ℕ × ℕ)) (a : ℕ), Spec.Partition (if N % 2 = 0 then 2 else 1) a (N / 2 + 1) cs →
      (cs.map (energyLocal N e)).sum = ∑ k ∈ Finset.Ico a (N / 2 + 1), wgt N k * e k := by
    intro cs
    induction cs with
    | nil => intro a h; obtain rfl : a = N / 2 + 1 := h; simp
    | cons c cs ih =>
      intro a h
      obtain ⟨h1, h2, h3, h4⟩ := h
      subst h1
      rw [List.map_cons, List.sum_cons, ih _ h4, energyLocal_eq N hN e c.1 c.2 h2 h3,
        Finset.sum_Ico_consecutive _ (by split_ifs at h2 <;> omega) h3]
  rw [energyR2C, key _ _ h]
  rcases Nat.even_or_odd' N with ⟨n, rfl | rfl⟩
  · rw [fullEnergy_even n (by omega), show 2 * n / 2 = n by omega, Finset.sum_Ico_succ_top (by omega),
      Finset.sum_eq_sum_Ico_succ_bot (by omega : 0 < n)]
    have hmid : ∑ k ∈ Finset.Ico (0 + 1) n, wgt (2 * n) k * e k = 2 * ∑ k ∈ Finset.Ico 1 n, e k := by
      rw [Finset.mul_sum]
      apply Finset.sum_congr rfl; intro k hk
      rw [Finset.mem_Ico] at hk
      rw [wgt, if_neg (by omega)]
    rw [hmid, wgt, wgt, if_pos (by omega), if_pos (by omega)]
    ring
  · rw [fullEnergy_odd n, show (2 * n + 1) / 2 = n by omega, Finset.sum_eq_sum_Ico_succ_bot (by omega : 0 < n + 1)]
    have hmid : ∑ k ∈ Finset.Ico (0 + 1) (n + 1), wgt (2 * n + 1) k * e k = 2 * ∑ k ∈ Finset.Ico 1 (n + 1), e k := by
      rw [Finset.mul_sum]
      apply Finset.sum_congr rfl; intro k hk
      rw [Finset.mem_Ico] at hk
      rw [wgt, if_neg (by omega)]
    rw [hmid, wgt, if_pos (by omega)]
    ring

/-- **C23** (one process, more than one dimension): no further condition. -/
theorem C23_one_process (N : ℕ) (hN : 2 ≤ N) (e : ℕ → ℝ) :
    energyR2C N e [(0, N / 2 + 1)] = Spec.fullEnergy N e := by
  apply C23_distributed_partial N hN
  refine ⟨rfl, ?_, le_refl _, rfl⟩
  split_ifs <;> omega

/-- **C23** (one dimension).  Correct for `N ≡ 1, 2 (mod 4)` only. -/
theorem C23_1D_partial (N : ℕ) (hN : N % 4 = 1 ∨ N % 4 = 2) (e : ℕ → ℝ) :
    energyR2C1D N e = Spec.fullEnergy N e := by
  rcases Nat.even_or_odd' N with ⟨n, rfl | rfl⟩
  · rw [fullEnergy_even n (by omega)]
    simp only [energyR2C1D]
    rw [if_pos (by omega), show 2 * n / 2 + 1 - 1 = n by omega]
    ring
  · rw [fullEnergy_odd n]
    simp only [energyR2C1D]
    rw [if_neg (by omega), show (2 * n + 1) / 2 + 1 = n + 1 by omega]
    ring

/-- For the other sizes the highest stored wavenumber has the wrong weight: the result is too large by its
energy for `N ≡ 0`, and too small by its energy for `N ≡ 3 (mod 4)`. -/
theorem C23_1D_wrong (N : ℕ) (hN : 1 ≤ N) (e : ℕ → ℝ) :
    (N % 4 = 0 → energyR2C1D N e = Spec.fullEnergy N e + e (N / 2)) ∧
    (N % 4 = 3 → energyR2C1D N e = Spec.fullEnergy N e - e (N / 2)) := by
  constructor
  · intro h4
    obtain ⟨n, rfl⟩ : ∃ n, N = 2 * n := ⟨N / 2, by omega⟩
    rw [fullEnergy_even n (by omega)]
    simp only [energyR2C1D]
    rw [if_neg (by omega), show 2 * n / 2 = n by omega, Finset.sum_Ico_succ_top (by omega)]
    ring
  · intro h4
    obtain ⟨n, rfl⟩ : ∃ n, N = 2 * n + 1 := ⟨N / 2, by omega⟩
    rw [fullEnergy_odd n]
    simp only [energyR2C1D]
    rw [if_pos (by omega), show (2 * n + 1) / 2 = n by omega, show n + 1 - 1 = n by omega, Finset.sum_Ico_succ_top (by omega)]
    ring

/-- The full statement of C23: all `N` and all distributions in which every process has data. -/
def C23Full : Prop := ∀ (N : ℕ) (e : ℕ → ℝ), 2 ≤ N → energyR2C1D N e = Spec.fullEnergy N e ∧
  ∀ chunks, Spec.Partition 1 0 (N / 2 + 1) chunks → energyR2C N e chunks = Spec.fullEnergy N e

theorem C23_full_refuted : ¬ C23Full := by
  intro h
  have h1 := (h 4 (fun _ => 1) (by omega)).1
  rw [(C23_1D_wrong 4 (by omega) _).1 rfl] at h1
  norm_num at h1

/-- Already two processes and `N = 4` (two and one wavenumbers) give a wrong distributed result. -/
theorem C23_distributed_refuted : ¬ ∀ (N : ℕ) (e : ℕ → ℝ) (chunks : List (ℕ × ℕ)), 2 ≤ N →
    Spec.Partition 1 0 (N / 2 + 1) chunks → energyR2C N e chunks = Spec.fullEnergy N e := by
  intro h
  have h1 := h 4 (fun _ => 1) [(0, 2), (2, 3)] (by omega) ⟨rfl, by omega, by omega, rfl, by omega, by omega, rfl⟩
  rw [show Spec.fullEnergy 4 (fun _ => 1) = 4 by simp [Spec.fullEnergy]] at h1
  norm_num [energyR2C, energyLocal] at h1

/-- Non-vacuity: eight points (five wavenumbers) on two processes. -/
example : Spec.Partition (if 8 % 2 = 0 then 2 else 1) 0 (8 / 2 + 1) [(0, 3), (3, 5)] ∧
    energyR2C 8 (fun k => k) [(0, 3), (3, 5)] = 16 := by
  have h : Spec.Partition (if 8 % 2 = 0 then 2 else 1) 0 (8 / 2 + 1) [(0, 3), (3, 5)] :=
    ⟨rfl, by simp, by simp, rfl, by simp, by simp, rfl⟩
  refine ⟨h, ?_⟩
  rw [C23_distributed_partial 8 (by omega) _ _ h, Spec.fullEnergy]
  norm_num [Finset.sum_range_succ]

open Fourier Complex in
/-- **C23** Parseval for the discrete transform: the energy of the full spectrum of `M` values is their mean
square. -/
theorem C23_parseval (M : ℕ) (hM : M ≠ 0) (f : ℕ → ℂ) :
    ∑ k ∈ Finset.range M, ‖dft M f k‖ ^ 2 = (∑ j ∈ Finset.range M, ‖f j‖ ^ 2) / M := by
  have hM' : (M : ℂ) ≠ 0 := by exact_mod_cast hM
  have hconj : ∀ (k : ℤ) (x : ℝ), (starRingEnd ℂ) (wave k x) = wave (-k) x := by
    intro k x
    rw [wave, ← Complex.exp_conj, wave]
    congr 1
    simp only [map_mul, Complex.conj_I, Complex.conj_ofReal, map_intCast]
    push_cast; ring
  have hexp : ∀ k j l : ℕ, wave (-(k : ℤ)) (mesh M j) * wave (k : ℤ) (mesh M l) = wave ((l : ℤ) - j) (mesh M k) := by
    intro k j l
    simp only [wave, mesh, ← Complex.exp_add]
    congr 1
    push_cast; ring
  have hc : (∑ k ∈ Finset.range M, (dft M f k * (starRingEnd ℂ) (dft M f k)))
      = (∑ j ∈ Finset.range M, f j * (starRingEnd ℂ) (f j)) / M := by
    have e1 : ∀ k ∈ Finset.range M, dft M f k * (starRingEnd ℂ) (dft M f k)
        = ∑ j ∈ Finset.range M, ∑ l ∈ Finset.range M,
            f j * (starRingEnd ℂ) (f l) * (1 / (M : ℂ)) ^ 2 * wave ((l : ℤ) - j) (mesh M k) := by
      intro k _
      rw [dft, map_mul, map_sum]
      simp only [map_mul, hconj, map_div₀, map_one, map_natCast, neg_neg]
      rw [show ∀ a b c : ℂ, a * c * (b * c) = (a * b) * c ^ 2 by intros; ring, Finset.sum_mul_sum, Finset.sum_mul]
      apply Finset.sum_congr rfl; intro j _
      rw [Finset.sum_mul]
      apply Finset.sum_congr rfl; intro l _
      rw [← hexp]
      ring
    rw [Finset.sum_congr rfl e1, Finset.sum_comm, Finset.sum_div]
    apply Finset.sum_congr rfl; intro j hj
    rw [Finset.sum_comm, Finset.sum_eq_single j]
    · rw [← Finset.mul_sum, sum_wave M hM, if_pos (by simp)]
      field_simp
    · intro l hl hne
      rw [Finset.mem_range] at hl hj
      rw [← Finset.mul_sum, sum_wave M hM, if_neg, mul_zero]
      intro hd
      have := Int.eq_zero_of_abs_lt_dvd hd (by
        rw [abs_lt]; omega)
      omega
    · intro h; exact absurd hj h
  have hn : ∀ z : ℂ, z * (starRingEnd ℂ) z = ((‖z‖ ^ 2 : ℝ) : ℂ) := by
    intro z; rw [Complex.mul_conj, Complex.normSq_eq_norm_sq]
  simp only [hn] at hc
  exact_mod_cast hc

open Fourier Complex in
/-- **C23** (one dimension, real functions).  The energy of the full spectrum, computed from the stored half as in
`Spec.fullEnergy`, is the mean square of the mesh values. -/
theorem C23_real (N : ℕ) (hN : 1 ≤ N) (f : ℕ → ℝ) :
    Spec.fullEnergy N (fun k => ‖rfft N (fun j => (f j : ℂ)) k‖ ^ 2) = (∑ j ∈ Finset.range N, f j ^ 2) / N := by
  have hp := C23_parseval N (by omega) (fun j => (f j : ℂ))
  simp only [Complex.norm_real, Real.norm_eq_abs, sq_abs] at hp
  rw [← hp, Spec.fullEnergy]
  apply Finset.sum_congr rfl
  intro k hk
  rw [Finset.mem_range] at hk
  have hsym : ∀ k : ℕ, 1 ≤ k → k < N → ‖dft N (fun j => (f j : ℂ)) (N - k)‖ = ‖dft N (fun j => (f j : ℂ)) k‖ := by
    intro k h1 h2
    have : dft N (fun j => (f j : ℂ)) (N - k) = (starRingEnd ℂ) (dft N (fun j => (f j : ℂ)) k) := by
      rw [dft, dft, map_mul, map_sum]
      simp only [map_mul, map_div₀, map_one, map_natCast, Complex.conj_ofReal]
      congr 1
      apply Finset.sum_congr rfl; intro j _
      congr 1
      rw [wave_mesh_congr N (by omega) j (k := -((N - k : ℕ) : ℤ)) (l := (k : ℤ))
        ⟨-1, by push_cast [Nat.cast_sub h2.le]; ring⟩]
      rw [wave, wave, ← Complex.exp_conj]
      congr 1
      simp only [map_mul, Complex.conj_I, Complex.conj_ofReal, map_intCast]
      push_cast; ring
    rw [this, Complex.norm_conj]
  simp only [rfft]
  rw [if_pos (by omega)]
  congr 1
  rcases le_total k (N - k) with h | h
  · rw [min_eq_left h]
  · rw [min_eq_right h, hsym k (by omega) hk]

/-- Several dimensions: with the Hermitian symmetry `F (-q) (-k) = conj (F q k)` of a real function (`neg` is the
negation of the wavenumbers of the other axes), `fullEnergy` of the sums over the other axes is the energy of the
full spectrum. -/
theorem C23_hermitian (N : ℕ) (hN : 1 ≤ N) {Q : Type*} [Fintype Q] (neg : Equiv.Perm Q) (F : Q → ℕ → ℂ)
    (hF : ∀ q k, 1 ≤ k → k < N → F (neg q) (N - k) = (starRingEnd ℂ) (F q k)) :
    Spec.fullEnergy N (fun k => ∑ q, ‖F q k‖ ^ 2) = ∑ k ∈ Finset.range N, ∑ q, ‖F q k‖ ^ 2 := by
  rw [Spec.fullEnergy]
  apply Finset.sum_congr rfl
  intro k hk
  rw [Finset.mem_range] at hk
  rcases le_total k (N - k) with h | h
  · rw [min_eq_left h]
  · rw [min_eq_right h, ← Equiv.sum_comp neg]
    apply Finset.sum_congr rfl
    intro q _
    rw [hF q k (by omega) hk, Complex.norm_conj]

/-! ## C39 -/

namespace NdArray

variable {α : Type*}

theorem wrap_mod (i n : ℕ) (h1 : i < n + 1) (h2 : ¬ i < n) : i % n = 0 := by
  rw [show i = n by omega, Nat.mod_self]

theorem vstackFirst_2D (x : NdArray α) (n m : ℕ) (hs : x.shape = [n, m]) (hn : 0 < n) :
    ∃ y, x.vstackFirst = .ok y ∧ y.shape = [n + 1, m] ∧ ∀ i < n + 1, ∀ j, y.get [i, j] = x.get [i % n, j] := by
  refine ⟨⟨[n + 1, m], fun i => match i with
        | [i, j] => if i < n then x.get [i, j] else x.get [0, j]
        | i => x.get i⟩, ?_, rfl, ?_⟩
  · simp only [vstackFirst, hs, hn.ne', if_false]
    rfl
  · intro i hi j
    simp only
    split_ifs with h
    · rw [Nat.mod_eq_of_lt h]
    · rw [wrap_mod i n hi h]

theorem hstackFirst_ok (x : NdArray α) (n m : ℕ) (r : List ℕ) (hs : x.shape = n :: m :: r) (hm : 0 < m) :
    ∃ y, x.hstackFirst = .ok y ∧ y.shape = n :: (m + 1) :: r ∧
      ∀ i, ∀ j < m + 1, ∀ k, y.get (i :: j :: k) = x.get (i :: (j % m) :: k) := by
  refine ⟨⟨n :: (m + 1) :: r, fun i => match i with
        | i :: j :: k => if j < m then x.get (i :: j :: k) else x.get (i :: 0 :: k)
        | i => x.get i⟩, ?_, rfl, ?_⟩
  · simp only [hstackFirst, hs, hm.ne', if_false]
    rfl
  · intro i j hj k
    simp only
    split_ifs with h
    · rw [Nat.mod_eq_of_lt h]
    · rw [wrap_mod j m hj h]

theorem dstackFirst_ok (x : NdArray α) (n m p : ℕ) (r : List ℕ) (hs : x.shape = n :: m :: p :: r) (hp : 0 < p) :
    ∃ y, x.dstackFirst = .ok y ∧ y.shape = n :: m :: (p + 1) :: r ∧
      ∀ i j, ∀ k < p + 1, ∀ l, y.get (i :: j :: k :: l) = x.get (i :: j :: (k % p) :: l) := by
  refine ⟨⟨n :: m :: (p + 1) :: r, fun i => match i with
        | i :: j :: k :: l => if k < p then x.get (i :: j :: k :: l) else x.get (i :: j :: 0 :: l)
        | i => x.get i⟩, ?_, rfl, ?_⟩
  · simp only [dstackFirst, hs, hp.ne', if_false]
    rfl
  · intro i j k hk l
    simp only
    split_ifs with h
    · rw [Nat.mod_eq_of_lt h]
    · rw [wrap_mod k p hk h]

/-- **C39** (two dimensions).  The result is the periodic extension by one in the chosen directions. -/
theorem C39_2D (x : NdArray α) (n m : ℕ) (hs : x.shape = [n, m]) (hn : 0 < n) (hm : 0 < m) (axes : List ℕ)
    (ha : ∀ a ∈ axes, a < 2) :
    ∃ y, x.wrapPeriodic axes = .ok y ∧
      y.shape = [n + if 0 ∈ axes then 1 else 0, m + if 1 ∈ axes then 1 else 0] ∧
      ∀ i < n + (if 0 ∈ axes then 1 else 0), ∀ j < m + (if 1 ∈ axes then 1 else 0),
        y.get [i, j] = x.get [i % n, j % m] := by
  have h2 : 2 ∉ axes := fun h => by have := ha 2 h; omega
  have s0 : ∃ y, (if 0 ∈ axes then x.vstackFirst else .ok x) = .ok y ∧
      y.shape = [n + if 0 ∈ axes then 1 else 0, m] ∧
      ∀ i < n + (if 0 ∈ axes then 1 else 0), ∀ j, y.get [i, j] = x.get [i % n, j] := by
    by_cases h : 0 ∈ axes
    · simp only [if_pos h]
      exact vstackFirst_2D x n m hs hn
    · simp only [if_neg h]
      exact ⟨x, rfl, hs, fun i hi j => by rw [Nat.mod_eq_of_lt (show i < n from hi)]⟩
  obtain ⟨y, e0, hy, gy⟩ := s0
  have s1 : ∃ z, (if 1 ∈ axes then y.hstackFirst else .ok y) = .ok z ∧
      z.shape = [n + if 0 ∈ axes then 1 else 0, m + if 1 ∈ axes then 1 else 0] ∧
      ∀ i, ∀ j < m + (if 1 ∈ axes then 1 else 0), z.get [i, j] = y.get [i, j % m] := by
    by_cases h : 1 ∈ axes
    · simp only [if_pos h]
      obtain ⟨z, a, b, c⟩ := hstackFirst_ok y _ _ _ hy hm
      exact ⟨z, a, b, fun i j hj => c i j hj []⟩
    · simp only [if_neg h]
      exact ⟨y, rfl, hy, fun i j hj => by rw [Nat.mod_eq_of_lt (show j < m from hj)]⟩
  obtain ⟨z, e1, hz, gz⟩ := s1
  refine ⟨z, ?_, hz, ?_⟩
  · simp only [wrapPeriodic, e0, Except.bind, e1, if_neg h2]
  · intro i hi j hj
    rw [gz i j hj, gy i hi]

/-- **C39** (three dimensions, last two axes). -/
theorem C39_3D_partial (x : NdArray α) (n m p : ℕ) (hs : x.shape = [n, m, p]) (hm : 0 < m) (hp : 0 < p) (axes : List ℕ)
    (ha : ∀ a ∈ axes, a = 1 ∨ a = 2) :
    ∃ y, x.wrapPeriodic axes = .ok y ∧
      y.shape = [n, m + if 1 ∈ axes then 1 else 0, p + if 2 ∈ axes then 1 else 0] ∧
      ∀ i < n, ∀ j < m + (if 1 ∈ axes then 1 else 0), ∀ k < p + (if 2 ∈ axes then 1 else 0),
        y.get [i, j, k] = x.get [i, j % m, k % p] := by
  have h0 : 0 ∉ axes := fun h => by have := ha 0 h; omega
  have s1 : ∃ z, (if 1 ∈ axes then x.hstackFirst else .ok x) = .ok z ∧
      z.shape = [n, m + if 1 ∈ axes then 1 else 0, p] ∧
      ∀ i, ∀ j < m + (if 1 ∈ axes then 1 else 0), ∀ k, z.get [i, j, k] = x.get [i, j % m, k] := by
    by_cases h : 1 ∈ axes
    · simp only [if_pos h]
      obtain ⟨z, a, b, c⟩ := hstackFirst_ok x _ _ _ hs hm
      exact ⟨z, a, b, fun i j hj k => c i j hj [k]⟩
    · simp only [if_neg h]
      exact ⟨x, rfl, hs, fun i j hj k => by rw [Nat.mod_eq_of_lt (show j < m from hj)]⟩
  obtain ⟨y, e1, hy, gy⟩ := s1
  have s2 : ∃ z, (if 2 ∈ axes then y.dstackFirst else .ok y) = .ok z ∧
      z.shape = [n, m + if 1 ∈ axes then 1 else 0, p + if 2 ∈ axes then 1 else 0] ∧
      ∀ i j, ∀ k < p + (if 2 ∈ axes then 1 else 0), z.get [i, j, k] = y.get [i, j, k % p] := by
    by_cases h2 : 2 ∈ axes
    · simp only [if_pos h2]
      obtain ⟨z, a, b, c⟩ := dstackFirst_ok y _ _ _ _ hy hp
      exact ⟨z, a, b, fun i j k hk => c i j k hk []⟩
    · simp only [if_neg h2]
      exact ⟨y, rfl, hy, fun i j k hk => by rw [Nat.mod_eq_of_lt (show k < p from hk)]⟩
  obtain ⟨z, e2, hz, gz⟩ := s2
  refine ⟨z, ?_, hz, ?_⟩
  · simp only [wrapPeriodic, if_neg h0, Except.bind, e1, e2]
  · intro i hi j hj k hk
    rw [gz i j k hk, gy i j hj]

/-- In three dimensions the first axis can not be wrapped: an exception is raised. -/
theorem C39_3D_axis0_error (x : NdArray α) (n m p : ℕ) (hs : x.shape = [n, m, p]) (axes : List ℕ) (h : 0 ∈ axes) :
    x.wrapPeriodic axes = .error "ValueError" := by
  simp only [wrapPeriodic, h, if_true, vstackFirst, hs, Except.bind]

/-- Also not for one-dimensional arrays of more than one entry. -/
theorem C39_1D_axis0_error (x : NdArray α) (n : ℕ) (hn : n ≠ 1) (hs : x.shape = [n]) (axes : List ℕ) (h : 0 ∈ axes) :
    x.wrapPeriodic axes = .error "ValueError" := by
  simp only [wrapPeriodic, h, if_true]
  rw [show x.vstackFirst = .error "ValueError" by
    rw [vstackFirst, hs]
    split
    · rename_i h; simp at h; omega
    · rename_i h; simp at h
    · rfl]
  rfl

/-- The full statement of C39. -/
def C39Full : Prop := ∀ (x : NdArray ℤ) (axes : List ℕ), (∀ l ∈ x.shape, 0 < l) → (∀ a ∈ axes, a < x.shape.length) →
  ∃ y, x.wrapPeriodic axes = .ok y

theorem C39_full_refuted : ¬ C39Full := by
  intro h
  obtain ⟨y, hy⟩ := h ⟨[2, 2, 2], fun _ => 0⟩ [0] (by simp) (by simp)
  rw [C39_3D_axis0_error _ 2 2 2 rfl [0] (by simp)] at hy
  cases hy

end NdArray

/-! ## C40 -/

namespace CacheState

/-- Invariant of the dictionary: all addresses are old, keys and addresses are distinct, and the array found
under a key has the shape and type given by the key. -/
structure Inv (s : CacheState) : Prop where
  lt : ∀ p ∈ s.data, p.2 < s.next
  inj : ∀ p ∈ s.data, ∀ q ∈ s.data, p.1 = q.1 ↔ p.2 = q.2
  typ : ∀ p ∈ s.data, (s.heap p.2).shape = p.1.1 ∧ (s.heap p.2).dtype = p.1.2.1

theorem inv_init (heap : ℕ → WArr) (next : ℕ) : Inv (init heap next) :=
  ⟨by simp [init], by simp [init], by simp [init]⟩

theorem lookup_mem {s : CacheState} {key : CKey} {a : ℕ} (h : s.data.lookup key = some a) : (key, a) ∈ s.data := by
  obtain ⟨data, heap, next⟩ := s
  simp only at h ⊢
  induction data with
  | nil => simp at h
  | cons p t ih =>
    rw [List.lookup_cons] at h
    split at h
    · rename_i hk
      simp only [beq_iff_eq] at hk
      simp only [Option.some.injEq] at h
      subst h; rw [hk]; exact List.mem_cons_self
    · exact List.mem_cons_of_mem _ (ih h)

theorem lookup_none {s : CacheState} {key : CKey} (h : s.data.lookup key = none) : ∀ p ∈ s.data, p.1 ≠ key := by
  obtain ⟨data, heap, next⟩ := s
  simp only at h ⊢
  induction data with
  | nil => simp
  | cons p t ih =>
    rw [List.lookup_cons] at h
    split at h
    · simp at h
    · rename_i hk
      intro q hq
      rcases List.mem_cons.1 hq with rfl | hq
      · intro he; simp [he] at hk
      · exact ih h q hq

theorem lookup_of_mem {s : CacheState} (hs : Inv s) {key : CKey} {a : ℕ} (h : (key, a) ∈ s.data) :
    s.data.lookup key = some a := by
  cases hl : s.data.lookup key with
  | none => exact absurd rfl (lookup_none hl _ h)
  | some b =>
    have := (hs.inj _ h _ (lookup_mem hl)).1 rfl
    simp only at this
    rw [this]

/-- What `__getitem__` does: afterwards the key is bound to the returned array. -/
theorem getitem_spec {s : CacheState} (hs : Inv s) (key : CKey) (fill : Bool) (g : List ℕ → ℤ) :
    Inv (s.getitem key fill g).2 ∧ (key, (s.getitem key fill g).1) ∈ (s.getitem key fill g).2.data ∧
    (∀ p ∈ s.data, p ∈ (s.getitem key fill g).2.data) ∧
    (fill = true → ((s.getitem key fill g).2.heap (s.getitem key fill g).1).data = fun _ => 0) ∧
    (∀ a < s.next, a ≠ (s.getitem key fill g).1 → (s.getitem key fill g).2.heap a = s.heap a) ∧
    s.next ≤ (s.getitem key fill g).2.next ∧
    (s.data.lookup key = none → (s.getitem key fill g).1 = s.next) ∧
    (∀ a, s.data.lookup key = some a → (s.getitem key fill g).1 = a ∧ (fill = false → (s.getitem key fill g).2 = s)) := by
  cases hl : s.data.lookup key with
  | some a =>
    have hm := lookup_mem hl
    cases fill
    · simp only [getitem, hl, Bool.false_eq_true, if_false]
      exact ⟨hs, hm, fun _ h => h, by simp, by simp, le_refl _, by simp, by simp⟩
    · simp only [getitem, hl, if_true]
      refine ⟨⟨hs.lt, hs.inj, ?_⟩, hm, fun _ h => h, by simp, ?_, le_refl _, by simp, by simp⟩
      · intro p hp
        by_cases h : p.2 = a
        · simp only [h, Function.update_self]
          have := hs.typ p hp
          rwa [h] at this
        · simp only [Function.update_of_ne h]
          exact hs.typ p hp
      · intro b _ hb
        simp only [Function.update_of_ne hb]
  | none =>
    have hn := lookup_none hl
    have base : Inv ⟨(key, s.next) :: s.data, Function.update s.heap s.next ⟨key.1, key.2.1, g⟩, s.next + 1⟩ := by
      refine ⟨?_, ?_, ?_⟩
      · intro p hp
        rcases List.mem_cons.1 hp with rfl | hp
        · simp
        · have := hs.lt p hp; simp only; omega
      · intro p hp q hq
        rcases List.mem_cons.1 hp with rfl | hp <;> rcases List.mem_cons.1 hq with rfl | hq
        · simp
        · have := hs.lt q hq
          have := hn q hq
          simp only
          constructor
          · intro h; exact absurd h.symm this
          · intro h; omega
        · have := hs.lt p hp
          have := hn p hp
          simp only
          constructor
          · intro h; exact absurd h this
          · intro h; omega
        · exact hs.inj p hp q hq
      · intro p hp
        rcases List.mem_cons.1 hp with rfl | hp
        · simp
        · have := hs.lt p hp
          simp only [Function.update_of_ne (by omega : p.2 ≠ s.next)]
          exact hs.typ p hp
    cases fill
    · simp only [getitem, hl, Bool.false_eq_true, if_false]
      refine ⟨base, List.mem_cons_self, fun p h => List.mem_cons_of_mem _ h, by simp, ?_, by omega, by simp, by simp⟩
      intro a _ ha
      simp only [Function.update_of_ne ha]
    · simp only [getitem, hl, if_true]
      refine ⟨⟨base.lt, base.inj, ?_⟩, List.mem_cons_self, fun p h => List.mem_cons_of_mem _ h, by simp, ?_, by omega, by simp, by simp⟩
      · intro p hp
        have := base.typ p hp
        by_cases h : p.2 = s.next
        · simp only [h, Function.update_self] at this ⊢
          exact this
        · simp only [Function.update_of_ne h] at this ⊢
          exact this
      · intro a _ ha
        simp only [Function.update_of_ne ha]

theorem inv_step {s : CacheState} (hs : Inv s) (op : Op) : Inv (s.step op) := by
  cases op with
  | get key fill g => exact (getitem_spec hs key fill g).1
  | del key =>
    refine ⟨?_, ?_, ?_⟩
    · intro p hp; exact hs.lt p (List.mem_filter.1 hp).1
    · intro p hp q hq; exact hs.inj p (List.mem_filter.1 hp).1 q (List.mem_filter.1 hq).1
    · intro p hp; exact hs.typ p (List.mem_filter.1 hp).1
  | write a d =>
    refine ⟨hs.lt, hs.inj, ?_⟩
    intro p hp
    by_cases h : p.2 = a
    · have := hs.typ p hp
      simp only [step, write, h, Function.update_self]
      rwa [h] at this
    · simp only [step, write, Function.update_of_ne h]
      exact hs.typ p hp
  | alloc w =>
    refine ⟨?_, hs.inj, ?_⟩
    · intro p hp; have := hs.lt p hp; simp only [step, alloc]; omega
    · intro p hp
      have := hs.lt p hp
      simp only [step, alloc, Function.update_of_ne (by omega : p.2 ≠ s.next)]
      exact hs.typ p hp

theorem inv_run {s : CacheState} (hs : Inv s) (ops : List Op) : Inv (s.run ops) := by
  induction ops generalizing s with
  | nil => exact hs
  | cons op t ih => exact ih (inv_step hs op)

/-- Unless the key is deleted, it stays bound to the same array. -/
theorem run_keeps {s : CacheState} (hs : Inv s) (key : CKey) (a : ℕ) (hm : (key, a) ∈ s.data) (ops : List Op)
    (hd : ∀ op ∈ ops, op ≠ .del key) : (key, a) ∈ (s.run ops).data := by
  induction ops generalizing s with
  | nil => exact hm
  | cons op t ih =>
    refine ih (inv_step hs op) ?_ (fun op h => hd op (List.mem_cons_of_mem _ h))
    cases op with
    | get key' fill g => exact (getitem_spec hs key' fill g).2.2.1 _ hm
    | del key' =>
      simp only [step, delitem, List.mem_filter, hm, true_and, ne_eq, decide_eq_true_eq]
      rintro rfl
      exact hd (.del key) List.mem_cons_self rfl
    | write => exact hm
    | alloc => exact hm

/-- **C40** After any history, indexing twice with the same key, with any operations in between other than
deleting that key, returns the same array. -/
theorem C40_same (heap : ℕ → WArr) (next : ℕ) (before between : List Op) (key : CKey) (fill fill' : Bool)
    (g g' : List ℕ → ℤ) (hd : ∀ op ∈ between, op ≠ .del key) :
    let s := (init heap next).run before
    let r := s.getitem key fill g
    ((r.2.run between).getitem key fill' g').1 = r.1 := by
  intro s r
  have hs : Inv s := inv_run (inv_init heap next) before
  obtain ⟨h1, h2, -⟩ := getitem_spec hs key fill g
  have hm := run_keeps h1 key _ h2 between hd
  have hi := inv_run h1 between
  exact ((getitem_spec hi key fill' g').2.2.2.2.2.2.2 _ (lookup_of_mem hi hm)).1

/-- **C40** Different keys never give the same array, even when keys are deleted in between. -/
theorem C40_distinct (heap : ℕ → WArr) (next : ℕ) (before between : List Op) (key key' : CKey) (fill fill' : Bool)
    (g g' : List ℕ → ℤ) (hk : key ≠ key') :
    let s := (init heap next).run before
    let r := s.getitem key fill g
    ((r.2.run between).getitem key' fill' g').1 ≠ r.1 := by
  intro s r
  have hs : Inv s := inv_run (inv_init heap next) before
  obtain ⟨h1, h2, -⟩ := getitem_spec hs key fill g
  -- the address `r.1` is old and is bound to no other key
  have hold : ∀ (ops : List Op) (t : CacheState), Inv t → r.1 < t.next → (∀ p ∈ t.data, p.2 = r.1 → p.1 = key) →
      r.1 < (t.run ops).next ∧ (∀ p ∈ (t.run ops).data, p.2 = r.1 → p.1 = key) := by
    intro ops
    induction ops with
    | nil => intro t _ h1 h2; exact ⟨h1, h2⟩
    | cons op ops ih =>
      intro t ht h1 h2
      refine ih (t.step op) (inv_step ht op) ?_ ?_
      · cases op with
        | get k f g => exact lt_of_lt_of_le h1 (getitem_spec ht k f g).2.2.2.2.2.1
        | del k => exact h1
        | write => exact h1
        | alloc w => simp only [step, alloc]; omega
      · cases op with
        | get k f g =>
          intro p hp he
          cases hl : t.data.lookup k with
          | some b =>
            have : (t.getitem k f g).2.data = t.data := by
              cases f <;> simp [getitem, hl]
            rw [step, this] at hp
            exact h2 p hp he
          | none =>
            have : (t.getitem k f g).2.data = (k, t.next) :: t.data := by
              cases f <;> simp [getitem, hl]
            rw [step, this] at hp
            rcases List.mem_cons.1 hp with rfl | hp
            · simp only at he; omega
            · exact h2 p hp he
        | del k =>
          intro p hp; exact h2 p (List.mem_filter.1 hp).1
        | write => exact h2
        | alloc w => exact h2
  have hlt : r.1 < r.2.next := h1.lt _ h2
  obtain ⟨h3, h4⟩ := hold between r.2 h1 hlt (fun p hp he => ((h1.inj p hp _ h2).2 he))
  have hi := inv_run h1 between
  obtain ⟨h5, h6, -⟩ := getitem_spec hi key' fill' g'
  intro he
  cases hl : (r.2.run between).data.lookup key' with
  | some b =>
    have := ((getitem_spec hi key' fill' g').2.2.2.2.2.2.2 b hl).1
    have hb := h4 _ (lookup_mem hl) (by rw [← this, he])
    exact hk hb.symm
  | none =>
    have := (getitem_spec hi key' fill' g').2.2.2.2.2.2.1 hl
    exact absurd (he ▸ this) (Nat.ne_of_lt h3)

/-- **C40** The returned array has the requested shape and type, is zero if requested, and no other array that
exists is changed by the access. -/
theorem C40_content (heap : ℕ → WArr) (next : ℕ) (before : List Op) (key : CKey) (fill : Bool) (g : List ℕ → ℤ) :
    let s := (init heap next).run before
    let r := s.getitem key fill g
    (r.2.heap r.1).shape = key.1 ∧ (r.2.heap r.1).dtype = key.2.1 ∧ (fill = true → (r.2.heap r.1).data = fun _ => 0) ∧
    ∀ a < s.next, a ≠ r.1 → r.2.heap a = s.heap a := by
  intro s r
  have hs : Inv s := inv_run (inv_init heap next) before
  obtain ⟨h1, h2, h3, h4, h5, -⟩ := getitem_spec hs key fill g
  exact ⟨(h1.typ _ h2).1, (h1.typ _ h2).2, h4, h5⟩

/-- Non-vacuity: two keys of the same shape, the second access of the first key after writing to it. -/
example :
    let s := init (fun _ => ⟨[], "", fun _ => 0⟩) 0
    let k0 : CKey := ([3, 4], "float", 0)
    let k1 : CKey := ([3, 4], "float", 1)
    let s1 := s.getitem k0 true (fun _ => 7)
    let s2 := (s1.2.write s1.1 fun _ => 5).getitem k1 true (fun _ => 7)
    let s3 := s2.2.getitem k0 false (fun _ => 7)
    s1.1 = 0 ∧ s2.1 = 1 ∧ s3.1 = 0 ∧ (s3.2.heap 0).data [0, 0] = 5 ∧ (s3.2.heap 1).data [0, 0] = 0 := by
  decide

end CacheState

end Shenfun
