import Verif.Model.Axis
import Verif.Props.TPList
import Verif.Lemmas.Loop
import Mathlib.Algebra.BigOperators.Pi

/-!
# Along-axis operations: C35, C36
-/

set_option linter.unusedSimpArgs false
set_option linter.unusedSectionVars false

namespace Shenfun

/-! ## C35: line by line -/

/-- A loop whose `j`-th pass only rewrites "slab" `j`, as a function of slab `j`. -/
theorem forN_slabs {X L : Type*} (get : X → ℕ → L) (body : ℕ → X → X) (f : ℕ → L → L)
    (h1 : ∀ j x, get (body j x) j = f j (get x j)) (h2 : ∀ i j x, i ≠ j → get (body j x) i = get x i)
    (x : X) (n i : ℕ) : get (forN body x n) i = if i < n then f i (get x i) else get x i := by
  induction n with
  | zero => simp
  | succ n ih =>
    rw [forN_succ]
    by_cases hi : i = n
    · subst hi
      rw [h1, ih]
      simp
    · rw [h2 _ _ _ hi, ih]
      have : (i < n) ↔ (i < n + 1) := by omega
      simp [this]

variable {K : Type*}

/-- **C35** (2D).  `Solve_axis_2D` applies the one-dimensional solver to every line along the axis,
independently of the other lines. -/
theorem C35_axis2D (n0 n1 : ℕ) (f : (ℕ → K) → (ℕ → K)) (x : ℕ → ℕ → K) :
    (∀ j < n1, (fun i => solveAxis2D n0 n1 f 0 x i j) = f (fun i => x i j)) ∧
    (∀ i < n0, (fun j => solveAxis2D n0 n1 f 1 x i j) = f (fun j => x i j)) := by
  constructor
  · intro j hj
    have := forN_slabs (X := ℕ → ℕ → K) (L := ℕ → K) (fun x j i => x i j)
      (fun j x => fun i j' => if j' = j then f (fun i => x i j) i else x i j') (fun _ => f)
      (by intro j x; simp) (by intro i j x h; simp [h]) x n1 j
    rw [if_pos hj] at this
    simpa [solveAxis2D] using this
  · intro i hi
    have := forN_slabs (X := ℕ → ℕ → K) (L := ℕ → K) (fun x i => x i)
      (fun i x => Function.update x i (f (x i))) (fun _ => f)
      (by intro j x; simp) (by intro i j x h; simp [Function.update_of_ne h]) x n0 i
    rw [if_pos hi] at this
    simpa [solveAxis2D] using this

/-- Two nested loops over lines. -/
theorem forN_slabs2 {X L : Type*} (get : X → ℕ → ℕ → L) (body : ℕ → ℕ → X → X) (f : ℕ → ℕ → L → L)
    (h1 : ∀ j k x, get (body j k x) j k = f j k (get x j k))
    (h2 : ∀ j' k' j k x, ¬ (j' = j ∧ k' = k) → get (body j k x) j' k' = get x j' k')
    (x : X) (n m i l : ℕ) :
    get (forN (fun j x => forN (fun k x => body j k x) x m) x n) i l
      = if i < n ∧ l < m then f i l (get x i l) else get x i l := by
  have inner : ∀ j x l, get (forN (fun k x => body j k x) x m) j l = if l < m then f j l (get x j l) else get x j l := by
    intro j x l
    exact forN_slabs (fun x l => get x j l) (body j) (f j) (fun k x => h1 j k x)
      (fun i k x h => h2 j i j k x (by tauto)) x m l
  have other : ∀ j x i l, i ≠ j → get (forN (fun k x => body j k x) x m) i l = get x i l := by
    intro j x i l hij
    induction m with
    | zero => rfl
    | succ m ih =>
      rw [forN_succ, h2 _ _ _ _ _ (by tauto), ih]
      intro j x l
      exact forN_slabs (fun x l => get x j l) (body j) (f j) (fun k x => h1 j k x)
        (fun i k x h => h2 j i j k x (by tauto)) x m l
  have := forN_slabs (fun x j => get x j) (fun j x => forN (fun k x => body j k x) x m)
    (fun j s l => if l < m then f j l (s l) else s l)
    (fun j x => funext fun l => inner j x l) (fun i j x h => funext fun l => other j x i l h) x n i
  rw [this]
  by_cases hi : i < n <;> simp [hi]

/-- Three nested loops over lines. -/
theorem forN_slabs3 {X L : Type*} (get : X → ℕ → ℕ → ℕ → L) (body : ℕ → ℕ → ℕ → X → X) (f : ℕ → ℕ → ℕ → L → L)
    (h1 : ∀ j k l x, get (body j k l x) j k l = f j k l (get x j k l))
    (h2 : ∀ j' k' l' j k l x, ¬ (j' = j ∧ k' = k ∧ l' = l) → get (body j k l x) j' k' l' = get x j' k' l')
    (x : X) (n m p i j l : ℕ) :
    get (forN (fun j x => forN (fun k x => forN (fun l x => body j k l x) x p) x m) x n) i j l
      = if i < n ∧ j < m ∧ l < p then f i j l (get x i j l) else get x i j l := by
  have inner : ∀ j x k l, get (forN (fun k x => forN (fun l x => body j k l x) x p) x m) j k l
      = if k < m ∧ l < p then f j k l (get x j k l) else get x j k l := by
    intro j x k l
    exact forN_slabs2 (fun x k l => get x j k l) (body j) (f j) (fun k l x => h1 j k l x)
      (fun k' l' k l x h => h2 j k' l' j k l x (by tauto)) x m p k l
  have other : ∀ (p m j : ℕ) (x : X) (i k l : ℕ), i ≠ j →
      get (forN (fun k x => forN (fun l x => body j k l x) x p) x m) i k l = get x i k l := by
    intro p m j x i k l hij
    have e : ∀ (q k' : ℕ) (x : X), get (forN (fun l x => body j k' l x) x q) i k l = get x i k l := by
      intro q k' x
      induction q with
      | zero => rfl
      | succ q ih => rw [forN_succ, h2 _ _ _ _ _ _ _ (by tauto), ih]
    induction m with
    | zero => rfl
    | succ m ih => rw [forN_succ, e, ih]
  have := forN_slabs (fun x j => get x j) (fun j x => forN (fun k x => forN (fun l x => body j k l x) x p) x m)
    (fun j s k l => if k < m ∧ l < p then f j k l (s k l) else s k l)
    (fun j x => funext fun k => funext fun l => inner j x k l)
    (fun i j x h => funext fun k => funext fun l => other p m j x i k l h) x n i
  rw [this]
  by_cases hi : i < n <;> simp [hi]

/-- **C35** (3D). -/
theorem C35_axis3D (n0 n1 n2 : ℕ) (f : (ℕ → K) → (ℕ → K)) (x : ℕ → ℕ → ℕ → K) :
    (∀ j < n1, ∀ k < n2, (fun i => solveAxis3D n0 n1 n2 f 0 x i j k) = f (fun i => x i j k)) ∧
    (∀ i < n0, ∀ k < n2, (fun j => solveAxis3D n0 n1 n2 f 1 x i j k) = f (fun j => x i j k)) ∧
    (∀ i < n0, ∀ j < n1, (fun k => solveAxis3D n0 n1 n2 f 2 x i j k) = f (fun k => x i j k)) := by
  refine ⟨?_, ?_, ?_⟩
  · intro j hj k hk
    have := forN_slabs2 (X := ℕ → ℕ → ℕ → K) (L := ℕ → K) (fun x j k i => x i j k)
      (fun j k x => fun i j' k' => if j' = j ∧ k' = k then f (fun i => x i j k) i else x i j' k')
      (fun _ _ => f) (by intro j k x; simp) (by intro i j x h l g; funext _; simp only [if_neg g]) x n1 n2 j k
    rw [if_pos ⟨hj, hk⟩] at this
    simpa [solveAxis3D] using this
  · intro j hj k hk
    have := forN_slabs2 (X := ℕ → ℕ → ℕ → K) (L := ℕ → K) (fun x i k j => x i j k)
      (fun i k x => fun i' j k' => if i' = i ∧ k' = k then f (fun j => x i j k) j else x i' j k')
      (fun _ _ => f) (by intro j k x; simp) (by intro i j x h l g; funext _; simp only [if_neg g]) x n0 n2 j k
    rw [if_pos ⟨hj, hk⟩] at this
    simpa [solveAxis3D] using this
  · intro j hj k hk
    have := forN_slabs2 (X := ℕ → ℕ → ℕ → K) (L := ℕ → K) (fun x i j k => x i j k)
      (fun i j x => fun i' j' k => if i' = i ∧ j' = j then f (fun k => x i j k) k else x i' j' k)
      (fun _ _ => f) (by intro j k x; simp) (by intro i j x h l g; funext _; simp only [if_neg g]) x n0 n1 j k
    rw [if_pos ⟨hj, hk⟩] at this
    simpa [solveAxis3D] using this

/-- **C35** (4D). -/
theorem C35_axis4D (n0 n1 n2 n3 : ℕ) (f : (ℕ → K) → (ℕ → K)) (x : ℕ → ℕ → ℕ → ℕ → K) :
    (∀ j < n1, ∀ k < n2, ∀ l < n3, (fun i => solveAxis4D n0 n1 n2 n3 f 0 x i j k l) = f (fun i => x i j k l)) ∧
    (∀ i < n0, ∀ k < n2, ∀ l < n3, (fun j => solveAxis4D n0 n1 n2 n3 f 1 x i j k l) = f (fun j => x i j k l)) ∧
    (∀ i < n0, ∀ j < n1, ∀ l < n3, (fun k => solveAxis4D n0 n1 n2 n3 f 2 x i j k l) = f (fun k => x i j k l)) ∧
    (∀ i < n0, ∀ j < n1, ∀ k < n2, (fun l => solveAxis4D n0 n1 n2 n3 f 3 x i j k l) = f (fun l => x i j k l)) := by
  refine ⟨?_, ?_, ?_, ?_⟩
  · intro j hj k hk l hl
    have := forN_slabs3 (X := ℕ → ℕ → ℕ → ℕ → K) (L := ℕ → K) (fun x j k l i => x i j k l)
      (fun j k l x => fun i j' k' l' => if j' = j ∧ k' = k ∧ l' = l then f (fun i => x i j k l) i else x i j' k' l')
      (fun _ _ _ => f) (by intros; simp) (by intro _ _ _ _ _ _ _ g; funext _; simp only [if_neg g]) x n1 n2 n3 j k l
    rw [if_pos ⟨hj, hk, hl⟩] at this
    simpa [solveAxis4D] using this
  · intro j hj k hk l hl
    have := forN_slabs3 (X := ℕ → ℕ → ℕ → ℕ → K) (L := ℕ → K) (fun x i k l j => x i j k l)
      (fun i k l x => fun i' j k' l' => if i' = i ∧ k' = k ∧ l' = l then f (fun j => x i j k l) j else x i' j k' l')
      (fun _ _ _ => f) (by intros; simp) (by intro _ _ _ _ _ _ _ g; funext _; simp only [if_neg g]) x n0 n2 n3 j k l
    rw [if_pos ⟨hj, hk, hl⟩] at this
    simpa [solveAxis4D] using this
  · intro j hj k hk l hl
    have := forN_slabs3 (X := ℕ → ℕ → ℕ → ℕ → K) (L := ℕ → K) (fun x i j l k => x i j k l)
      (fun i j l x => fun i' j' k l' => if i' = i ∧ j' = j ∧ l' = l then f (fun k => x i j k l) k else x i' j' k l')
      (fun _ _ _ => f) (by intros; simp) (by intro _ _ _ _ _ _ _ g; funext _; simp only [if_neg g]) x n0 n1 n3 j k l
    rw [if_pos ⟨hj, hk, hl⟩] at this
    simpa [solveAxis4D] using this
  · intro j hj k hk l hl
    have := forN_slabs3 (X := ℕ → ℕ → ℕ → ℕ → K) (L := ℕ → K) (fun x i j k l => x i j k l)
      (fun i j k x => fun i' j' k' l => if i' = i ∧ j' = j ∧ k' = k then f (fun l => x i j k l) l else x i' j' k' l)
      (fun _ _ _ => f) (by intros; simp) (by intro _ _ _ _ _ _ _ g; funext _; simp only [if_neg g]) x n0 n1 n2 j k l
    rw [if_pos ⟨hj, hk, hl⟩] at this
    simpa [solveAxis4D] using this

/-- The slice of a two-dimensional array along `axis` at position `p` of the other axis. -/
def line2 (x : ℕ → ℕ → K) (axis p : ℕ) : ℕ → K := if axis = 0 then (fun i => x i p) else x p

/-- **C35** for `SolverGeneric1ND.fast_solve` (2D): every line is solved exactly once, by its own solver,
whether or not this process is the one that treats wavenumber zero separately. -/
theorem C35_fastSolve2D (n0 n1 : ℕ) (rank0 : Bool) (f : ℕ → (ℕ → K) → (ℕ → K)) (naxes : ℕ) (b : ℕ → ℕ → K)
    (p : ℕ) (hp : p < if naxes = 0 then n1 else n0) :
    line2 (fastSolve2D n0 n1 rank0 f naxes b) naxes p = f p (line2 b naxes p) := by
  by_cases hn : naxes = 0
  · subst hn
    simp only [if_true] at hp
    simp only [line2, fastSolve2D, solveData2D, if_true]
    have := fun x => forN_slabs (X := ℕ → ℕ → K) (L := ℕ → K) (fun x j i => x i j)
      (fun j x => if j = 0 ∧ rank0 = true then x
        else fun i j' => if j' = j then f j (fun i => x i j) i else x i j')
      (fun j l => if j = 0 ∧ rank0 = true then l else f j l)
      (by intro j x; by_cases h : j = 0 ∧ rank0 = true <;> simp [h])
      (by intro i j x h; by_cases h' : j = 0 ∧ rank0 = true <;> simp [h', h]) x n1 p
    rw [this, if_pos hp]
    cases rank0 with
    | false => simp
    | true =>
      by_cases h0 : p = 0
      · simp [h0]
      · simp [h0]
  · simp only [if_neg hn] at hp
    simp only [line2, fastSolve2D, solveData2D, if_neg hn]
    have := fun x => forN_slabs (X := ℕ → ℕ → K) (L := ℕ → K) (fun x i => x i)
      (fun i x => if i = 0 ∧ rank0 = true then x else Function.update x i (f i (x i)))
      (fun j l => if j = 0 ∧ rank0 = true then l else f j l)
      (by intro j x; by_cases h : j = 0 ∧ rank0 = true <;> simp [h])
      (by intro i j x h; by_cases h' : j = 0 ∧ rank0 = true <;> simp [h', Function.update_of_ne h]) x n0 p
    rw [this, if_pos hp]
    cases rank0 with
    | false => simp
    | true =>
      by_cases h0 : p = 0
      · simp [h0]
      · simp [h0]

/-- **C35** for `SolverGeneric1ND_solve_data` (3D): every line except possibly the one with both other
indices zero is handled by its own solver, and that one is left for the caller. -/
theorem C35_solveData3D (n0 n1 n2 : ℕ) (z : Bool) (f : ℕ → ℕ → (ℕ → K) → (ℕ → K)) (x : ℕ → ℕ → ℕ → K) :
    let g := fun p q (l : ℕ → K) => if p = 0 ∧ q = 0 ∧ z = true then l else f p q l
    (∀ j < n1, ∀ k < n2, (fun i => solveData3D n0 n1 n2 z f 0 x i j k) = g j k (fun i => x i j k)) ∧
    (∀ i < n0, ∀ k < n2, (fun j => solveData3D n0 n1 n2 z f 1 x i j k) = g i k (fun j => x i j k)) ∧
    (∀ i < n0, ∀ j < n1, (fun k => solveData3D n0 n1 n2 z f 2 x i j k) = g i j (fun k => x i j k)) := by
  intro g
  refine ⟨?_, ?_, ?_⟩
  · intro j hj k hk
    have := forN_slabs2 (X := ℕ → ℕ → ℕ → K) (L := ℕ → K) (fun x j k i => x i j k)
      (fun j k x => if j = 0 ∧ k = 0 ∧ z = true then x else
        fun i j' k' => if j' = j ∧ k' = k then f j k (fun i => x i j k) i else x i j' k')
      g (by intro j k x; by_cases h : j = 0 ∧ k = 0 ∧ z = true <;> simp [h, g])
      (by intro i j x h l u; by_cases h' : x = 0 ∧ h = 0 ∧ z = true
          · simp [h']
          · funext _; simp only [if_neg h', if_neg u]) x n1 n2 j k
    rw [if_pos ⟨hj, hk⟩] at this
    simpa [solveData3D] using this
  · intro j hj k hk
    have := forN_slabs2 (X := ℕ → ℕ → ℕ → K) (L := ℕ → K) (fun x i k j => x i j k)
      (fun i k x => if i = 0 ∧ k = 0 ∧ z = true then x else
        fun i' j k' => if i' = i ∧ k' = k then f i k (fun j => x i j k) j else x i' j k')
      g (by intro j k x; by_cases h : j = 0 ∧ k = 0 ∧ z = true <;> simp [h, g])
      (by intro i j x h l u; by_cases h' : x = 0 ∧ h = 0 ∧ z = true
          · simp [h']
          · funext _; simp only [if_neg h', if_neg u]) x n0 n2 j k
    rw [if_pos ⟨hj, hk⟩] at this
    simpa [solveData3D] using this
  · intro j hj k hk
    have := forN_slabs2 (X := ℕ → ℕ → ℕ → K) (L := ℕ → K) (fun x i j k => x i j k)
      (fun i j x => if i = 0 ∧ j = 0 ∧ z = true then x else
        fun i' j' k => if i' = i ∧ j' = j then f i j (fun k => x i j k) k else x i' j' k)
      g (by intro j k x; by_cases h : j = 0 ∧ k = 0 ∧ z = true <;> simp [h, g])
      (by intro i j x h l u; by_cases h' : x = 0 ∧ h = 0 ∧ z = true
          · simp [h']
          · funext _; simp only [if_neg h', if_neg u]) x n0 n1 j k
    rw [if_pos ⟨hj, hk⟩] at this
    simpa [solveData3D] using this

/-- **C35**, end to end: a banded solver applied along an axis of a 3D array solves the matrix problem on
every line (here axis 1; the other axes are `C35_axis3D`). -/
theorem C35_banded_axis3D [Field K] (k : Kind) (hk : k ≠ .three) (n0 n1 n2 : ℕ) (hn : k.minSize ≤ n1) (data : Dia K)
    (he : Spec.Eliminable n1 (Spec.diaEntry k.offs data)) (b : ℕ → ℕ → ℕ → K) :
    ∀ i < n0, ∀ l < n2, Spec.IsTheSolution n1 (Spec.diaEntry k.offs data) (fun j => b i j l)
      (fun j => solveAxis3D n0 n1 n2 (k.sweep n1 (k.factor n1 data)) 1 b i j l) := by
  intro i hi l hl
  rw [(C35_axis3D n0 n1 n2 _ b).2.1 i hi l hl]
  exact Kind.solves k hk n1 hn data he _

/-! ## C36: tensor product matrices act axis by axis -/

section tensor

variable [Field K] {D : ℕ}

/-- Application of a matrix along one axis, from its entries. -/
def Spec.applyAxis (n : ℕ) (M : ℕ → ℕ → K) (a : Fin D) (v : (Fin D → ℕ) → K) (I : Fin D → ℕ) : K :=
  ∑ j ∈ Finset.range n, M (I a) j * v (Function.update I a j)

theorem matvecAxis_eq (A : SM K) (hk : ∀ d ∈ A.diags, -(A.rows : ℤ) ≤ d.1 ∧ d.1 ≤ A.cols) (a : Fin D)
    (v : (Fin D → ℕ) → K) (I : Fin D → ℕ) (hI : I a < A.rows) :
    A.matvecAxis a v I = Spec.applyAxis A.cols A.entry a v I := by
  rw [SM.matvecAxis, (SM.C12_matvec A hk _).1 _ hI]
  rfl

/-- Successive application along the axes of a list is the sum over the corresponding multi-indices. -/
theorem applyAxes (n : Fin D → ℕ) (M : Fin D → ℕ → ℕ → K) (v : (Fin D → ℕ) → K) (L : List (Fin D)) (hL : L.Nodup) :
    ∀ I : Fin D → ℕ, L.foldr (fun a w => Spec.applyAxis (n a) (M a) a w) v I
      = ∑ J ∈ Fintype.piFinset (fun a => if a ∈ L then Finset.range (n a) else {I a}),
          (L.map fun a => M a (I a) (J a)).prod * v J := by
  induction L with
  | nil =>
    intro I
    have : (Fintype.piFinset fun a => ({I a} : Finset ℕ)) = {I} := by
      ext J; simp [funext_iff]
    simp [this]
  | cons a L ih =>
    obtain ⟨ha, hL'⟩ := List.nodup_cons.1 hL
    intro I
    rw [List.foldr_cons, Spec.applyAxis]
    have hmap : ∀ J ∈ Fintype.piFinset (fun b => if b ∈ a :: L then Finset.range (n b) else {I b}),
        J a ∈ Finset.range (n a) := by
      intro J hJ
      rw [Fintype.mem_piFinset] at hJ
      simpa using hJ a
    rw [← Finset.sum_fiberwise_of_maps_to hmap]
    apply Finset.sum_congr rfl
    intro j hj
    rw [ih hL', Finset.mul_sum]
    have hset : (Fintype.piFinset fun b => if b ∈ L then Finset.range (n b) else {Function.update I a j b})
        = {J ∈ Fintype.piFinset (fun b => if b ∈ a :: L then Finset.range (n b) else {I b}) | J a = j} := by
      ext J
      simp only [Fintype.mem_piFinset, Finset.mem_filter]
      constructor
      · intro h
        have hja : J a = j := by
          have := h a
          simpa [ha] using this
        refine ⟨fun b => ?_, hja⟩
        by_cases hb : b = a
        · subst hb; simp [hja]; simpa using hj
        · have := h b
          simpa [hb, Function.update_of_ne hb] using this
      · rintro ⟨h, hja⟩ b
        by_cases hb : b = a
        · subst hb; simp [ha, hja]
        · have := h b
          simpa [hb, Function.update_of_ne hb] using this
    rw [hset]
    apply Finset.sum_congr rfl
    intro J hJ
    simp only [Finset.mem_filter] at hJ
    rw [List.map_cons, List.prod_cons, hJ.2, ← mul_assoc]
    congr 3
    apply List.map_congr_left
    intro b hb
    rw [Function.update_of_ne]
    rintro rfl
    exact ha hb

theorem applyAxis_one (n : ℕ) (a : Fin D) (v : (Fin D → ℕ) → K) (I : Fin D → ℕ) (h : I a < n) :
    Spec.applyAxis n (fun i j => if i = j then 1 else 0) a v I = v I := by
  simp only [Spec.applyAxis]
  rw [Finset.sum_eq_single (I a)]
  · simp
  · intro b _ hb
    simp [Ne.symm hb]
  · intro hc
    simp at hc
    omega

/-- The shape condition on the stored diagonals that numpy slicing needs (see C12). -/
def TPM.Fits (t : TPM D K) : Prop :=
  ∀ a, ∀ d ∈ (t.mats a).sm.diags, -((t.mats a).sm.rows : ℤ) ≤ d.1 ∧ d.1 ≤ (t.mats a).sm.cols

theorem foldr_applyAxis_congr (L : List (Fin D)) (n : Fin D → ℕ) (M : Fin D → ℕ → ℕ → K)
    (v w : (Fin D → ℕ) → K) (h : v = w) :
    L.foldr (fun a w => Spec.applyAxis (n a) (M a) a w) v = L.foldr (fun a w => Spec.applyAxis (n a) (M a) a w) w := by
  rw [h]

/-- Operator with identity matrices outside a list of axes. -/
theorem tensor_of_axes (n : Fin D → ℕ) (M : Fin D → ℕ → ℕ → K) (L : List (Fin D)) (hL : L.Nodup)
    (hM : ∀ a ∉ L, M a = fun i j => if i = j then 1 else 0) (v : (Fin D → ℕ) → K) (I : Fin D → ℕ)
    (hI : ∀ a ∉ L, I a < n a) :
    L.foldr (fun a w => Spec.applyAxis (n a) (M a) a w) v I
      = ∑ J ∈ Fintype.piFinset fun a => Finset.range (n a), (∏ a, M a (I a) (J a)) * v J := by
  rw [applyAxes n M v L hL]
  have hsub : Fintype.piFinset (fun a => if a ∈ L then Finset.range (n a) else {I a})
      ⊆ Fintype.piFinset fun a => Finset.range (n a) := by
    intro J hJ
    rw [Fintype.mem_piFinset] at hJ ⊢
    intro a
    have := hJ a
    by_cases ha : a ∈ L
    · simpa [ha] using this
    · simp [ha] at this
      simpa [this] using hI a ha
  have hprod : ∀ J : Fin D → ℕ, ∏ a, M a (I a) (J a)
      = (L.map fun a => M a (I a) (J a)).prod * ∏ a ∈ Finset.univ.filter (· ∉ L), M a (I a) (J a) := by
    intro J
    have h1 : (L.map fun a => M a (I a) (J a)).prod = ∏ a ∈ L.toFinset, M a (I a) (J a) := by
      rw [List.prod_toFinset _ hL]
    rw [h1, ← Finset.prod_filter_mul_prod_filter_not Finset.univ (· ∈ L)]
    congr 1
    apply Finset.prod_congr _ fun _ _ => rfl
    ext a; simp
  rw [← Finset.sum_subset hsub]
  · apply Finset.sum_congr rfl
    intro J hJ
    rw [Fintype.mem_piFinset] at hJ
    rw [hprod]
    have : ∏ a ∈ Finset.univ.filter (· ∉ L), M a (I a) (J a) = 1 := by
      apply Finset.prod_eq_one
      intro a ha
      simp at ha
      have := hJ a
      simp [ha] at this
      rw [hM a ha, this]
      simp
    rw [this, mul_one]
  · intro J hJ hJn
    rw [Fintype.mem_piFinset] at hJ hJn
    push Not at hJn
    obtain ⟨a, ha⟩ := hJn
    have haL : a ∉ L := by
      intro hc
      simp only [hc, if_true] at ha
      exact ha (hJ a)
    simp only [haL, if_false, Finset.mem_singleton] at ha
    rw [Finset.prod_eq_zero (Finset.mem_univ a), zero_mul]
    rw [hM a haL]
    simp [Ne.symm ha]

/-- **C36.**  For an assembled tensor product matrix with at most two non-diagonal axes, square along the
diagonal axes, `TPMatrix.matvec` is multiplication by the tensor product operator, whichever axis is
aligned first. -/
theorem C36_matvec (t : TPM D K) (ht : t.Assembled) (hs : t.simplified = false) (hf : t.Fits)
    (hsq : ∀ a, t.diag a = true → (t.mats a).sm.rows = (t.mats a).sm.cols)
    (hn : t.naxes.length ≤ 2) (pencil : Bool) (v : (Fin D → ℕ) → K) (I : Fin D → ℕ)
    (hI : ∀ a, I a < (t.mats a).sm.rows) :
    t.matvec pencil v I = Spec.tensorApply (fun a => (t.mats a).sm.cols) t.op v I := by
  classical
  -- the object actually used
  set t' := if t.returnsSelf then t else t.simplify with ht'
  have hop : ∀ I J, t'.op I J = t.op I J := by
    intro I J
    rw [ht']
    split_ifs
    · rfl
    · exact C16_simplify_op t ht I J
  have hdiag : t'.diag = t.diag := by rw [ht']; split_ifs <;> rfl
  have hnax : t'.naxes = t.naxes := by simp only [TPM.naxes, hdiag]
  have hmn : ∀ a, t.diag a = false → t'.mats a = t.mats a := by
    intro a ha
    rw [ht']
    split_ifs
    · rfl
    · simp [TPM.simplify, TPM.simpMats, ha]
  have hmd : ∀ a, t.diag a = true → (t'.mats a).sm.entry = fun i j => if i = j then 1 else 0 := by
    intro a ha
    rw [ht']
    have : ¬ t.returnsSelf := by
      rintro (h | h)
      · rw [h a] at ha; simp at ha
      · rw [hs] at h; simp at h
    rw [if_neg this]
    simp only [TPM.simplify, TPM.simpMats, ha, if_true]
    funext i j
    exact ident_entry _ _ i j
  have hmem : ∀ a, a ∈ t.naxes ↔ t.diag a = false := by
    intro a; simp [TPM.naxes]
  have hnd : t.naxes.Nodup := (List.nodup_finRange D).filter _
  -- the right hand side
  have rhs : ∀ L : List (Fin D), L.Nodup → (∀ a, a ∈ L ↔ t.diag a = false) →
      Spec.tensorApply (fun a => (t.mats a).sm.cols) t.op v I
      = L.foldr (fun a w => Spec.applyAxis (t.mats a).sm.cols (t'.mats a).sm.entry a w) v I * t'.scale I := by
    intro L hL hLm
    rw [tensor_of_axes (fun a => (t.mats a).sm.cols) (fun a => (t'.mats a).sm.entry) L hL ?_ v I ?_]
    · rw [Spec.tensorApply, Finset.sum_mul]
      apply Finset.sum_congr rfl
      intro J _
      rw [← hop]
      simp only [TPM.op, Spec.tensorEntry]
      ring
    · intro a ha
      apply hmd
      rw [hLm] at ha
      simpa using ha
    · intro a ha
      rw [hLm] at ha
      rw [← hsq a (by simpa using ha)]
      exact hI a
  have hax : ∀ a, t.diag a = false → ∀ (w : (Fin D → ℕ) → K) (I : Fin D → ℕ), I a < (t.mats a).sm.rows →
      (t'.mats a).sm.matvecAxis a w I = Spec.applyAxis (t.mats a).sm.cols (t'.mats a).sm.entry a w I := by
    intro a ha w I hIa
    rw [hmn a ha]
    exact matvecAxis_eq _ (hf a) a w I hIa
  have htwo : ∀ a b, a ≠ b → t.diag a = false → t.diag b = false → (∀ c, c ∈ t.naxes ↔ c = a ∨ c = b) →
      (t'.mats b).sm.matvecAxis b ((t'.mats a).sm.matvecAxis a v) I * t'.scale I
        = Spec.tensorApply (fun a => (t.mats a).sm.cols) t.op v I := by
    intro a b hab ha hb hab'
    rw [rhs [b, a] (by simp [Ne.symm hab]) (by intro c; rw [← hmem, hab']; simp [or_comm])]
    simp only [List.foldr_cons, List.foldr_nil]
    rw [hax b hb _ I (hI b)]
    congr 1
    simp only [Spec.applyAxis]
    apply Finset.sum_congr rfl
    intro j _
    congr 1
    exact hax a ha v _ (by rw [Function.update_of_ne hab]; exact hI a)
  -- case analysis on the non-diagonal axes
  unfold TPM.matvec
  simp only [← ht']
  rw [hnax]
  match hnaxes : t.naxes, hn with
  | [], _ =>
    simp only
    rw [rhs [] (by simp) (by intro a; rw [← hmem, hnaxes])]
    simp only [List.foldr_nil]
    ring
  | [a], _ =>
    simp only
    have ha : t.diag a = false := by rw [← hmem, hnaxes]; simp
    rw [rhs [a] (by simp) (by intro c; rw [← hmem, hnaxes])]
    rw [hax a ha v I (hI a)]
    simp
  | [a, b], _ =>
    have ha : t.diag a = false := by rw [← hmem, hnaxes]; simp
    have hb : t.diag b = false := by rw [← hmem, hnaxes]; simp
    have hab : a ≠ b := by
      rw [hnaxes] at hnd
      simpa using hnd
    have hm : ∀ c, c ∈ t.naxes ↔ c = a ∨ c = b := by intro c; rw [hnaxes]; simp
    cases pencil with
    | true => simpa using htwo a b hab ha hb hm
    | false => simpa using htwo b a (Ne.symm hab) hb ha (by intro c; rw [hm c]; exact or_comm)
  | _ :: _ :: _ :: _, h => simp at h

/-- With three or more non-diagonal axes `matvec` silently returns the zero array. -/
theorem C36_three_axes_zero (t : TPM D K) (hn : 3 ≤ t.naxes.length) (pencil : Bool) (v : (Fin D → ℕ) → K)
    (I : Fin D → ℕ) : t.matvec pencil v I = 0 := by
  classical
  unfold TPM.matvec
  have : (if t.returnsSelf then t else t.simplify).naxes = t.naxes := by
    split_ifs <;> rfl
  rw [this]
  match h : t.naxes, hn with
  | _ :: _ :: _ :: _, _ => rfl

/-- Row-major (C order) flat index. -/
def Spec.flat : List ℕ → List ℕ → ℕ
  | _ :: ns, i :: is => i * ns.prod + Spec.flat ns is
  | _, _ => 0

theorem Spec.flat_lt : ∀ (ns is : List ℕ), List.Forall₂ (fun n i => i < n) ns is → Spec.flat ns is < ns.prod := by
  intro ns is h
  induction h with
  | nil => simp [Spec.flat]
  | @cons n i ns is hi _ ih =>
    simp only [Spec.flat, List.prod_cons]
    calc i * ns.prod + Spec.flat ns is < i * ns.prod + ns.prod := by omega
      _ = (i + 1) * ns.prod := by ring
      _ ≤ n * ns.prod := Nat.mul_le_mul_right _ hi

theorem kronList_shape (L : List (Dense K)) :
    (kronList L).rows = (L.map Dense.rows).prod ∧ (kronList L).cols = (L.map Dense.cols).prod := by
  induction L with
  | nil => simp [kronList]
  | cons A L ih =>
    cases L with
    | nil => simp [kronList]
    | cons B L =>
      simp only [kronList, Dense.kron, List.map_cons, List.prod_cons] at ih ⊢
      rw [ih.1, ih.2]
      simp

/-- The nested Kronecker product, entry by entry. -/
theorem kronList_entry (L : List (Dense K)) : ∀ (I J : List ℕ),
    List.Forall₂ (fun n i => i < n) (L.map Dense.rows) I → List.Forall₂ (fun n i => i < n) (L.map Dense.cols) J →
    (kronList L).e (Spec.flat (L.map Dense.rows) I) (Spec.flat (L.map Dense.cols) J)
      = (List.zipWith (fun A (p : ℕ × ℕ) => A.e p.1 p.2) L (I.zip J)).prod := by
  induction L with
  | nil => intro I J h1 h2; simp at h1 h2; subst h1 h2; simp [kronList]
  | cons A L ih =>
    intro I J h1 h2
    rw [List.map_cons] at h1 h2
    cases h1 with
    | @cons _ i _ I hi hI =>
    cases h2 with
    | @cons _ j _ J hj hJ =>
    cases L with
    | nil =>
      simp at hI hJ
      subst hI hJ
      simp [kronList, Spec.flat]
    | cons B L =>
      have hI' := Spec.flat_lt _ _ hI
      have hJ' := Spec.flat_lt _ _ hJ
      have e := ih I J hI hJ
      obtain ⟨s1, s2⟩ := kronList_shape (B :: L)
      simp only [List.zip_cons_cons, List.zipWith_cons_cons, List.prod_cons]
      rw [← e]
      simp only [kronList, Dense.kron, List.map_cons (f := Dense.rows) (a := A), List.map_cons (f := Dense.cols) (a := A), Spec.flat]
      rw [s1, s2]
      have d1 : (i * (List.map Dense.rows (B :: L)).prod + Spec.flat (List.map Dense.rows (B :: L)) I)
          / (List.map Dense.rows (B :: L)).prod = i := by
        rw [Nat.mul_comm, Nat.mul_add_div (by omega), Nat.div_eq_of_lt hI', add_zero]
      have m1 : (i * (List.map Dense.rows (B :: L)).prod + Spec.flat (List.map Dense.rows (B :: L)) I)
          % (List.map Dense.rows (B :: L)).prod = Spec.flat (List.map Dense.rows (B :: L)) I := by
        rw [Nat.mul_comm, Nat.mul_add_mod, Nat.mod_eq_of_lt hI']
      have d2 : (j * (List.map Dense.cols (B :: L)).prod + Spec.flat (List.map Dense.cols (B :: L)) J)
          / (List.map Dense.cols (B :: L)).prod = j := by
        rw [Nat.mul_comm, Nat.mul_add_div (by omega), Nat.div_eq_of_lt hJ', add_zero]
      have m2 : (j * (List.map Dense.cols (B :: L)).prod + Spec.flat (List.map Dense.cols (B :: L)) J)
          % (List.map Dense.cols (B :: L)).prod = Spec.flat (List.map Dense.cols (B :: L)) J := by
        rw [Nat.mul_comm, Nat.mul_add_mod, Nat.mod_eq_of_lt hJ']
      rw [d1, m1, d2, m2]

/-- **C36** (assembled matrix).  The matrix `TPMatrix.diags()` is the tensor product operator in row-major
(C order) numbering of the multi-indices. -/
theorem C36_diags (t : TPM D K) (c : K) (hc : t.scale = fun _ => c) (I J : Fin D → ℕ) (hIJ : t.InShape I J) :
    (t.diags c).e (Spec.flat (List.ofFn fun a => (t.mats a).sm.rows) (List.ofFn I))
        (Spec.flat (List.ofFn fun a => (t.mats a).sm.cols) (List.ofFn J)) = t.op I J := by
  simp only [TPM.diags]
  set L := (List.finRange D).map fun a => (t.mats a).sm.dense with hL
  have r : (List.ofFn fun a => (t.mats a).sm.rows) = L.map Dense.rows := by
    rw [hL, List.map_map, List.ofFn_eq_map]; rfl
  have c' : (List.ofFn fun a => (t.mats a).sm.cols) = L.map Dense.cols := by
    rw [hL, List.map_map, List.ofFn_eq_map]; rfl
  rw [r, c', kronList_entry]
  · rw [TPM.op, Spec.tensorEntry, hc, mul_comm]
    congr 1
    rw [hL, List.ofFn_eq_map, List.ofFn_eq_map, List.zip_map', List.zipWith_map, ← List.prod_ofFn, List.ofFn_eq_map]
    congr 1
    rw [List.zipWith_self]
    rfl
  · rw [← r]
    rw [List.forall₂_iff_get]
    simp
    intro i h
    exact (hIJ ⟨i, h⟩).1
  · rw [← c']
    rw [List.forall₂_iff_get]
    simp
    intro i h
    exact (hIJ ⟨i, h⟩).2

/-- Every equation of `C36_matvec` is met by a concrete matrix with one diagonal and one tridiagonal axis. -/
example : (exTP 2 false).Assembled ∧ (exTP 2 false).simplified = false ∧ (exTP 2 false).Fits ∧
    (∀ a, (exTP 2 false).diag a = true → ((exTP 2 false).mats a).sm.rows = ((exTP 2 false).mats a).sm.cols) ∧
    (exTP 2 false).naxes.length ≤ 2 ∧ (∀ a, (![1, 3] : Fin 2 → ℕ) a < ((exTP 2 false).mats a).sm.rows) := by
  refine ⟨⟨?_, ?_⟩, rfl, ?_, ?_, ?_, ?_⟩
  · intro a; fin_cases a <;> rfl
  · intro a ha
    fin_cases a
    · exact ⟨_, rfl⟩
    · simp [exTP] at ha
  · intro a d hd
    fin_cases a <;> simp [exTP, exFourier, exTri] at hd ⊢
    · simp [hd]
    · rcases hd with rfl | rfl | rfl <;> simp
  · intro a _; fin_cases a <;> rfl
  · decide
  · intro a; fin_cases a <;> simp [exTP, exFourier, exTri]

end tensor

end Shenfun
