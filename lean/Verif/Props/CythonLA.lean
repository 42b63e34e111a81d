import Verif.Model.CythonLA
import Verif.Props.SolverHistory
import Verif.Lemmas.Loop
import Mathlib.Tactic.Ring
import Mathlib.Tactic.Linarith

/-!
# C80: the compiled solvers return what the Python solvers return
-/

namespace Shenfun

open Cy

set_option linter.unusedSectionVars false

variable {K : Type*} [Field K]

/-- The memory cell `a` belongs to the line of `n` items with stride `st` that starts at `p`. -/
def OnLine (n : ℕ) (p st a : ℤ) : Prop := ∃ i < n, a = p + i * st

/-- A kernel that works on lines: with the items `v 0, …, v (n-1)` on the line it leaves `f v 0, …, f v (n-1)` there,
whatever the other memory contains, and changes nothing else. -/
def LineKernel (n : ℕ) (f : (ℕ → K) → ℕ → K) (ker : Kernel K) : Prop :=
  ∀ p st : ℤ, st ≠ 0 → ∀ m : Mem K,
    (∀ v : ℕ → K, (∀ i < n, m (p + i * st) = v i) → ∀ i < n, ker p st m (p + i * st) = f v i) ∧
    ∀ a, ¬ OnLine n p st a → ker p st m a = m a

/-- Flat storage of the first rows of `data`. -/
def RowMajor (dat : ℤ → K) (D : Dia K) (rows n : ℕ) : Prop := ∀ r < rows, ∀ c < n, dat ((r:ℤ) * n + c) = D r c

/-- Memory and array correspond. -/
structure Sim (n : ℕ) (p st : ℤ) (m0 m : Mem K) (v : ℕ → K) : Prop where
  line : ∀ i < n, m (p + i * st) = v i
  rest : ∀ a, ¬ OnLine n p st a → m a = m0 a

theorem Sim.wr {n : ℕ} {p st : ℤ} (hst : st ≠ 0) {m0 m : Mem K} {v : ℕ → K} (h : Sim n p st m0 m v) (i : ℕ) (hi : i < n)
    {z : ℤ} (hz : z = i) {x y : K} (hxy : x = y) : Sim n p st m0 (wr p st m z x) (Function.update v i y) := by
  subst hz hxy
  constructor
  · intro j hj
    unfold Cy.wr
    by_cases hij : j = i
    · subst hij; rw [Function.update_self, Function.update_self]
    · rw [Function.update_of_ne hij, Function.update_of_ne, h.line j hj]
      intro he
      apply hij
      have : ((j:ℤ) - i) * st = 0 := by linarith
      rcases mul_eq_zero.1 this with h1 | h1
      · omega
      · exact absurd h1 hst
  · intro a ha
    unfold Cy.wr
    rw [Function.update_of_ne, h.rest a ha]
    rintro rfl
    exact ha ⟨i, hi, rfl⟩

theorem Sim.rd {n : ℕ} {p st : ℤ} {m0 m : Mem K} {v : ℕ → K} (h : Sim n p st m0 m v) (i : ℕ) (hi : i < n)
    {z : ℤ} (hz : z = i) : Cy.rd p st m z = v i := by
  subst hz; exact h.line i hi

theorem Sim.loop {n : ℕ} {p st : ℤ} {m0 : Mem K} (f : ℕ → Mem K → Mem K) (g : ℕ → (ℕ → K) → ℕ → K) (c : ℕ)
    (hs : ∀ k < c, ∀ m v, Sim n p st m0 m v → Sim n p st m0 (f k m) (g k v)) {m : Mem K} {v : ℕ → K}
    (h : Sim n p st m0 m v) : Sim n p st m0 (forN f m c) (forN g v c) := by
  induction c with
  | zero => exact h
  | succ c ih => exact hs c (by omega) _ _ (ih fun k hk => hs k (by omega))

theorem lineKernel_of_sim {n : ℕ} {f : (ℕ → K) → ℕ → K} {ker : Kernel K}
    (h : ∀ p st : ℤ, st ≠ 0 → ∀ (m : Mem K) (v : ℕ → K), (∀ i < n, m (p + i * st) = v i) → Sim n p st m (ker p st m) (f v)) :
    LineKernel n f ker := fun p st hst m =>
  ⟨fun v hv => (h p st hst m v hv).line, (h p st hst m (fun i => m (p + i * st)) fun _ _ => rfl).rest⟩

theorem RowMajor.get {dat : ℤ → K} {D : Dia K} {rows n : ℕ} (h : RowMajor dat D rows n) (r c : ℕ) (hr : r < rows) (hc : c < n)
    {z : ℤ} (hz : z = (r:ℤ) * n + c) : dat z = D r c := by
  subst hz; exact h r hr c hc

/-- Equality of the stored values. -/
macro "simval" h:ident hD:ident : tactic => `(tactic|
  (beta_reduce
   repeat' first
    | exact Sim.rd $h _ (by omega) (by first | omega | (push_cast; omega))
    | exact RowMajor.get $hD _ _ (by omega) (by omega) (by first | omega | (push_cast; omega))
    | refine congrArg₂ HDiv.hDiv ?_ ?_
    | refine congrArg₂ HSub.hSub ?_ ?_
    | refine congrArg₂ HAdd.hAdd ?_ ?_
    | refine congrArg₂ HMul.hMul ?_ ?_))

/-- One assignment. -/
macro "simwr" h:ident hst:ident hD:ident : tactic => `(tactic|
  refine Sim.wr $hst $h _ (by omega) (by first | omega | (push_cast; omega)) (by simval $h $hD))

/-- **C80** Compiled `TDMA_inner_solve`: for any pointer, any nonzero stride and any size `n ≥ 2` the line gets the values the
Python `TDMA.inner_solve` computes, and no other memory is written. -/
theorem C80_tdma (n : ℕ) (hn : 2 ≤ n) (dat : ℤ → K) (D : Dia K) (hD : RowMajor dat D 3 n) :
    LineKernel n (TDMA.innerSolve n D) (tdma dat n) := by
  refine lineKernel_of_sim fun p st hst m v hv => ?_
  have h0 : Sim n p st m m v := ⟨hv, fun _ _ => rfl⟩
  unfold tdma TDMA.innerSolve
  have e1 : pyIdx n ((n:ℤ)-1) = n - 1 := by unfold pyIdx; split_ifs <;> omega
  have e2 : pyIdx n ((n:ℤ)-2) = n - 2 := by unfold pyIdx; split_ifs <;> omega
  rw [e1, e2]
  extract_lets N ld d ud m1 m2 m3 u1 u2 u3
  have hN : N = n := rfl
  have h1 : Sim n p st m m1 u1 := by
    refine Sim.loop _ _ _ (fun k hk m v h => ?_) h0
    dsimp only
    simwr h hst hD
  have h2 : Sim n p st m m2 u2 := by
    simwr h1 hst hD
  have h3 : Sim n p st m m3 u3 := by
    simwr h2 hst hD
  refine Sim.loop _ _ _ (fun k hk m v h => ?_) h3
  dsimp only
  simwr h hst hD

/-- **C80** Compiled `TDMA_O_inner_solve`, sizes `n ≥ 1`. -/
theorem C80_tdmaO (n : ℕ) (hn : 1 ≤ n) (dat : ℤ → K) (D : Dia K) (hD : RowMajor dat D 3 n) :
    LineKernel n (TDMAO.innerSolve n D) (tdmaO dat n) := by
  refine lineKernel_of_sim fun p st hst m v hv => ?_
  have h0 : Sim n p st m m v := ⟨hv, fun _ _ => rfl⟩
  unfold tdmaO TDMAO.innerSolve
  have e1 : pyIdx n ((n:ℤ)-1) = n - 1 := by unfold pyIdx; split_ifs <;> omega
  have e2 : pyIdx n ((n:ℤ)-2) = n - 2 := by unfold pyIdx; split_ifs <;> omega
  rw [e1]
  extract_lets N ld d ud m1 m2 u1 u2
  have hN : N = n := rfl
  have h1 : Sim n p st m m1 u1 := by
    refine Sim.loop _ _ _ (fun k hk m v h => ?_) h0
    dsimp only
    simwr h hst hD
  have h2 : Sim n p st m m2 u2 := by
    simwr h1 hst hD
  refine Sim.loop _ _ _ (fun k hk m v h => ?_) h2
  dsimp only
  simwr h hst hD

/-- **C80** Compiled `PDMA_inner_solve`, sizes `n ≥ 4`. -/
theorem C80_pdma (n : ℕ) (hn : 4 ≤ n) (dat : ℤ → K) (D : Dia K) (hD : RowMajor dat D 5 n) :
    LineKernel n (PDMA.innerSolve n D) (pdma dat n) := by
  refine lineKernel_of_sim fun p st hst m v hv => ?_
  have h0 : Sim n p st m m v := ⟨hv, fun _ _ => rfl⟩
  unfold pdma PDMA.innerSolve
  extract_lets N a b d e f m1 m2 m3 m4 m5 m6 m7 u1 u2 u3 u4 u5 u6 u7
  have hN : N = n := rfl
  have h1 : Sim n p st m m1 u1 := by
    simwr h0 hst hD
  have h2 : Sim n p st m m2 u2 := by
    simwr h1 hst hD
  have h3 : Sim n p st m m3 u3 := by
    refine Sim.loop _ _ _ (fun k hk m v h => ?_) h2
    dsimp only
    simwr h hst hD
  have h4 : Sim n p st m m4 u4 := by
    simwr h3 hst hD
  have h5 : Sim n p st m m5 u5 := by
    simwr h4 hst hD
  have h6 : Sim n p st m m6 u6 := by
    simwr h5 hst hD
  have h7 : Sim n p st m m7 u7 := by
    simwr h6 hst hD
  refine Sim.loop _ _ _ (fun k hk m v h => ?_) h7
  dsimp only
  simwr h hst hD

/-- **C80** Compiled `FDMA_inner_solve`, sizes `n ≥ 4`. -/
theorem C80_fdma (n : ℕ) (hn : 4 ≤ n) (dat : ℤ → K) (D : Dia K) (hD : RowMajor dat D 4 n) :
    LineKernel n (FDMA.innerSolve n D) (fdma dat n) := by
  refine lineKernel_of_sim fun p st hst m v hv => ?_
  have h0 : Sim n p st m m v := ⟨hv, fun _ _ => rfl⟩
  unfold fdma FDMA.innerSolve
  extract_lets N ld d u1' u2' m1 m2 m3 m4 m5 u1 u2 u3 u4 u5
  have hN : N = n := rfl
  have h1 : Sim n p st m m1 u1 := by
    refine Sim.loop _ _ _ (fun k hk m v h => ?_) h0
    dsimp only
    simwr h hst hD
  have h2 : Sim n p st m m2 u2 := by
    simwr h1 hst hD
  have h3 : Sim n p st m m3 u3 := by
    simwr h2 hst hD
  have h4 : Sim n p st m m4 u4 := by
    simwr h3 hst hD
  have h5 : Sim n p st m m5 u5 := by
    simwr h4 hst hD
  refine Sim.loop _ _ _ (fun k hk m v h => ?_) h5
  dsimp only
  simwr h hst hD

/-- **C80** Compiled `TwoDMA_inner_solve`, sizes `n ≥ 2`. -/
theorem C80_twodma (n : ℕ) (hn : 2 ≤ n) (dat : ℤ → K) (D : Dia K) (hD : RowMajor dat D 2 n) :
    LineKernel n (TwoDMA.innerSolve n D) (twodma dat n) := by
  refine lineKernel_of_sim fun p st hst m v hv => ?_
  have h0 : Sim n p st m m v := ⟨hv, fun _ _ => rfl⟩
  unfold twodma TwoDMA.innerSolve
  have e1 : pyIdx n ((n:ℤ)-1) = n - 1 := by unfold pyIdx; split_ifs <;> omega
  have e2 : pyIdx n ((n:ℤ)-2) = n - 2 := by unfold pyIdx; split_ifs <;> omega
  rw [e1, e2]
  extract_lets N d u1' m1 m2 u1 u2
  have hN : N = n := rfl
  have h1 : Sim n p st m m1 u1 := by
    simwr h0 hst hD
  have h2 : Sim n p st m m2 u2 := by
    simwr h1 hst hD
  refine Sim.loop _ _ _ (fun k hk m v h => ?_) h2
  dsimp only
  simwr h hst hD

/-- **C80** Compiled `ThreeDMA_inner_solve` (with the row of the second diagonal as in the Python version: C06 refutes that it solves the system)`, sizes `n ≥ 4`. -/
theorem C80_threedma (n : ℕ) (hn : 4 ≤ n) (dat : ℤ → K) (D : Dia K) (hD : RowMajor dat D 2 n) :
    LineKernel n (ThreeDMA.innerSolve n D) (threedma dat n) := by
  refine lineKernel_of_sim fun p st hst m v hv => ?_
  have h0 : Sim n p st m m v := ⟨hv, fun _ _ => rfl⟩
  unfold threedma ThreeDMA.innerSolve ThreeDMA.innerSolveRow
  extract_lets N d u1' u2' m1 m2 m3 m4 u1 u2 u3 u4
  have hN : N = n := rfl
  have h1 : Sim n p st m m1 u1 := by
    simwr h0 hst hD
  have h2 : Sim n p st m m2 u2 := by
    simwr h1 hst hD
  have h3 : Sim n p st m m3 u3 := by
    simwr h2 hst hD
  have h4 : Sim n p st m m4 u4 := by
    simwr h3 hst hD
  refine Sim.loop _ _ _ (fun k hk m v h => ?_) h4
  dsimp only
  simwr h hst hD

/-- **C80** Compiled `HeptaDMA_inner_solve`, sizes `n ≥ 8`. -/
theorem C80_heptadma (n : ℕ) (hn : 8 ≤ n) (dat : ℤ → K) (D : Dia K) (hD : RowMajor dat D 7 n) :
    LineKernel n (HeptaDMA.innerSolve n D) (heptadma dat n) := by
  refine lineKernel_of_sim fun p st hst m v hv => ?_
  have h0 : Sim n p st m m v := ⟨hv, fun _ _ => rfl⟩
  unfold heptadma HeptaDMA.innerSolve
  extract_lets N a b d e f g h' m1 m2 m3 m4 m5 m6 m7 m8 m9 m10 m11 u1 u2 u3 u4 u5 u6 u7 u8 u9 u10 u11
  have hN : N = n := rfl
  have h1 : Sim n p st m m1 u1 := by
    simwr h0 hst hD
  have h2 : Sim n p st m m2 u2 := by
    simwr h1 hst hD
  have h3 : Sim n p st m m3 u3 := by
    refine Sim.loop _ _ _ (fun k hk m v h => ?_) h2
    dsimp only
    simwr h hst hD
  have h4 : Sim n p st m m4 u4 := by
    simwr h3 hst hD
  have h5 : Sim n p st m m5 u5 := by
    simwr h4 hst hD
  have h6 : Sim n p st m m6 u6 := by
    simwr h5 hst hD
  have h7 : Sim n p st m m7 u7 := by
    simwr h6 hst hD
  have h8 : Sim n p st m m8 u8 := by
    simwr h7 hst hD
  have h9 : Sim n p st m m9 u9 := by
    simwr h8 hst hD
  have h10 : Sim n p st m m10 u10 := by
    simwr h9 hst hD
  have h11 : Sim n p st m m11 u11 := by
    simwr h10 hst hD
  refine Sim.loop _ _ _ (fun k hk m v h => ?_) h11
  dsimp only
  simwr h hst hD

/-- **C80** Compiled `DiagMA_inner_solve`, every size. -/
theorem C80_diagma (n : ℕ) (dat : ℤ → K) (D : Dia K) (hD : RowMajor dat D 1 n) :
    LineKernel n (DiagMA.innerSolve n D) (diagma dat n) := by
  refine lineKernel_of_sim fun p st hst m v hv => ?_
  have h0 : Sim n p st m m v := ⟨hv, fun _ _ => rfl⟩
  have e : DiagMA.innerSolve n D v = forN (fun i v => Function.update v i (v i / D 0 i)) v n := by
    have key : ∀ c ≤ n, ∀ j, forN (fun i v => Function.update v i (v i / D 0 i)) v c j =
        if j < c then v j / D 0 j else v j := by
      intro c hc j
      induction c generalizing j with
      | zero => simp
      | succ c ih =>
        rw [forN_succ, Function.update_apply]
        by_cases hj : j = c
        · subst hj; rw [if_pos rfl, ih (by omega), if_neg (by omega), if_pos (by omega)]
        · rw [if_neg hj, ih (by omega)]
          by_cases h : j < c
          · rw [if_pos h, if_pos (by omega)]
          · rw [if_neg h, if_neg (by omega)]
    funext j
    rw [key n le_rfl j]
    rfl
  rw [e]
  unfold diagma
  refine Sim.loop _ _ _ (fun k hk m v h => ?_) h0
  simwr h hst hD

/-! ## All lines of an array -/

/-- The lines `k ∈ S` have been transformed by `f k`; no other memory has been written. -/
structure Effect {ι : Type*} (n : ℕ) (st : ℤ) (start : ι → ℤ) (f : ι → (ℕ → K) → ℕ → K) (S : Set ι) (m m' : Mem K) : Prop where
  line : ∀ k ∈ S, ∀ v : ℕ → K, (∀ i < n, m (start k + i * st) = v i) → ∀ i < n, m' (start k + i * st) = f k v i
  rest : ∀ a, (∀ k ∈ S, ¬ OnLine n (start k) st a) → m' a = m a

/-- Different lines have no memory cell in common. -/
def LinesDisjoint {ι : Type*} (n : ℕ) (st : ℤ) (start : ι → ℤ) (U : Set ι) : Prop :=
  ∀ k ∈ U, ∀ l ∈ U, ∀ a, OnLine n (start k) st a → OnLine n (start l) st a → k = l

theorem Effect.refl {ι : Type*} {n : ℕ} {st : ℤ} {start : ι → ℤ} {f : ι → (ℕ → K) → ℕ → K} (m : Mem K) :
    Effect n st start f ∅ m m := ⟨fun k hk => absurd hk (by simp), fun _ _ => rfl⟩

theorem Effect.trans {ι : Type*} {n : ℕ} {st : ℤ} {start : ι → ℤ} {f : ι → (ℕ → K) → ℕ → K} {S T U : Set ι} {m m' m'' : Mem K}
    (hU : LinesDisjoint n st start U) (hS : S ⊆ U) (hT : T ⊆ U) (hST : ∀ k ∈ S, k ∉ T)
    (h1 : Effect n st start f S m m') (h2 : Effect n st start f T m' m'') : Effect n st start f (S ∪ T) m m'' := by
  constructor
  · rintro k (hk | hk) v hv i hi
    · rw [h2.rest _ fun l hl hon => ?_, h1.line k hk v hv i hi]
      have := hU k (hS hk) l (hT hl) _ ⟨i, hi, rfl⟩ hon
      subst this
      exact hST k hk hl
    · refine h2.line k hk v (fun i hi => ?_) i hi
      rw [h1.rest _ fun l hl hon => ?_, hv i hi]
      have := hU k (hT hk) l (hS hl) _ ⟨i, hi, rfl⟩ hon
      subst this
      exact hST k hl hk
  · intro a ha
    rw [h2.rest a fun k hk => ha k (Or.inr hk), h1.rest a fun k hk => ha k (Or.inl hk)]

theorem Effect.loop {ι : Type*} {n : ℕ} {st : ℤ} {start : ι → ℤ} {f : ι → (ℕ → K) → ℕ → K} {U : Set ι}
    (hU : LinesDisjoint n st start U) (g : ℕ → Mem K → Mem K) (S : ℕ → Set ι) (c : ℕ) (hS : ∀ q < c, S q ⊆ U)
    (hd : ∀ q < c, ∀ r < q, ∀ k ∈ S r, k ∉ S q) (hg : ∀ q < c, ∀ m, Effect n st start f (S q) m (g q m)) (m : Mem K) :
    Effect n st start f {k | ∃ q < c, k ∈ S q} m (forN g m c) := by
  induction c with
  | zero =>
    have : {k | ∃ q < 0, k ∈ S q} = (∅ : Set ι) := by ext; simp
    rw [this]; exact Effect.refl m
  | succ c ih =>
    have e : {k | ∃ q < c + 1, k ∈ S q} = {k | ∃ q < c, k ∈ S q} ∪ S c := by
      ext k
      constructor
      · rintro ⟨q, hq, hk⟩
        rcases Nat.lt_succ_iff_lt_or_eq.1 hq with h | rfl
        · exact Or.inl ⟨q, h, hk⟩
        · exact Or.inr hk
      · rintro (⟨q, hq, hk⟩ | hk)
        · exact ⟨q, by omega, hk⟩
        · exact ⟨c, by omega, hk⟩
    rw [e]
    refine Effect.trans hU ?_ (hS c (by omega)) ?_ (ih (fun q hq => hS q (by omega)) (fun q hq => hd q (by omega))
      fun q hq => hg q (by omega)) (hg c (by omega) _)
    · rintro k ⟨q, hq, hk⟩; exact hS q (by omega) hk
    · rintro k ⟨q, hq, hk⟩; exact hd c (by omega) q hq k hk

theorem LineKernel.effect {ι : Type*} {n : ℕ} {st : ℤ} (hst : st ≠ 0) {start : ι → ℤ} {f : ι → (ℕ → K) → ℕ → K} {ker : Kernel K}
    (k : ι) (h : LineKernel n (f k) ker) {q : ℤ} (hq : q = start k) (m : Mem K) :
    Effect n st start f {k} m (ker q st m) := by
  subst hq
  constructor
  · rintro l rfl v hv i hi
    exact (h _ st hst m).1 v hv i hi
  · intro a ha
    exact (h _ st hst m).2 a (ha k rfl)

/-- Row-major addresses are unique. -/
theorem rowMajor_unique {s a b a' b' : ℕ} (hb : b < s) (hb' : b' < s) (h : (a:ℤ) * s + b = a' * s + b') : a = a' ∧ b = b' := by
  have h' : a * s + b = a' * s + b' := by exact_mod_cast h
  have h1 : (a * s + b) / s = a := by
    rw [Nat.add_comm, Nat.add_mul_div_right _ _ (by omega), Nat.div_eq_of_lt hb, zero_add]
  have h2 : (a' * s + b') / s = a' := by
    rw [Nat.add_comm, Nat.add_mul_div_right _ _ (by omega), Nat.div_eq_of_lt hb', zero_add]
  have : a = a' := by rw [← h1, ← h2, h']
  subst this
  exact ⟨rfl, by omega⟩

/-- Address of element `(i, j)` of a C-contiguous array with `s1` columns at `p`. -/
def addr2 (p : ℤ) (s1 i j : ℕ) : ℤ := p + (i * s1 + j)

/-- Address of element `(i, j, k)` of a C-contiguous array of shape `(·, s1, s2)` at `p`. -/
def addr3 (p : ℤ) (s1 s2 i j k : ℕ) : ℤ := p + ((i * s1 + j) * s2 + k)

theorem addr2_inj {p : ℤ} {s1 i j i' j' : ℕ} (hj : j < s1) (hj' : j' < s1) (h : addr2 p s1 i j = addr2 p s1 i' j') :
    i = i' ∧ j = j' := by
  unfold addr2 at h
  exact rowMajor_unique hj hj' (by linarith)

theorem addr3_inj {p : ℤ} {s1 s2 i j k i' j' k' : ℕ} (hj : j < s1) (hj' : j' < s1) (hk : k < s2) (hk' : k' < s2)
    (h : addr3 p s1 s2 i j k = addr3 p s1 s2 i' j' k') : i = i' ∧ j = j' ∧ k = k' := by
  unfold addr3 at h
  obtain ⟨h1, h2⟩ := rowMajor_unique (a := i * s1 + j) (a' := i' * s1 + j') hk hk' (by push_cast; linarith)
  obtain ⟨h3, h4⟩ := rowMajor_unique (a := i) (a' := i') hj hj' (by exact_mod_cast h1)
  exact ⟨h3, h4, h2⟩

/-- Replace the first `n` items of a line. -/
def head (n : ℕ) (f : (ℕ → K) → ℕ → K) (v : ℕ → K) (i : ℕ) : K := if i < n then f v i else v i


theorem Effect.view {ι : Type*} {n L : ℕ} (hL : n ≤ L) {st : ℤ} {start : ι → ℤ} {f : ι → (ℕ → K) → ℕ → K} {U : Set ι} {m m' : Mem K}
    (inj : ∀ k ∈ U, ∀ l ∈ U, ∀ i < L, ∀ j < L, start k + (i:ℕ) * st = start l + (j:ℕ) * st → k = l ∧ i = j)
    (h : Effect n st start f U m m') (k : ι) (hk : k ∈ U) (i : ℕ) (hi : i < L) :
    m' (start k + i * st) = head n (f k) (fun i => m (start k + i * st)) i := by
  unfold head
  split_ifs with hin
  · exact h.line k hk _ (fun _ _ => rfl) i hin
  · refine h.rest _ fun l hl => ?_
    rintro ⟨j, hj, e⟩
    have := inj k hk l hl i hi j (by omega) e
    omega

theorem linesDisjoint_of_inj {ι : Type*} {n L : ℕ} (hL : n ≤ L) {st : ℤ} {start : ι → ℤ} {U : Set ι}
    (inj : ∀ k ∈ U, ∀ l ∈ U, ∀ i < L, ∀ j < L, start k + (i:ℕ) * st = start l + (j:ℕ) * st → k = l ∧ i = j) :
    LinesDisjoint n st start U := by
  rintro k hk l hl a ⟨i, hi, rfl⟩ ⟨j, hj, e⟩
  exact (inj k hk l hl i (by omega) j (by omega) e).1

theorem Effect.skip {ι : Type*} {n : ℕ} {st : ℤ} {start : ι → ℤ} {f : ι → (ℕ → K) → ℕ → K} (k : ι) (hf : ∀ v, f k v = v)
    (m : Mem K) : Effect n st start f {k} m m := by
  constructor
  · rintro l rfl v hv i hi
    rw [hf]; exact hv i hi
  · exact fun _ _ => rfl

/-- One loop over lines. -/
theorem Effect.lines {n : ℕ} {st : ℤ} {start : ℕ → ℤ} {f : ℕ → (ℕ → K) → ℕ → K} (c : ℕ)
    (hU : LinesDisjoint n st start {k | k < c}) (g : ℕ → Mem K → Mem K)
    (hg : ∀ q < c, ∀ m, Effect n st start f {q} m (g q m)) (m : Mem K) :
    Effect n st start f {k | k < c} m (forN g m c) := by
  have e : {k | k < c} = {k | ∃ q < c, k ∈ ({q} : Set ℕ)} := by ext k; simp
  have := Effect.loop hU g (fun q => {q}) c (by intro q hq k hk; simp only [Set.mem_singleton_iff] at hk; subst hk; exact hq)
    (by intro q _ r hr k hk hk'; simp only [Set.mem_singleton_iff] at hk hk'; omega) hg m
  rwa [← e] at this

/-- Two nested loops over lines. -/
theorem Effect.lines2 {n : ℕ} {st : ℤ} {start : ℕ × ℕ → ℤ} {f : ℕ × ℕ → (ℕ → K) → ℕ → K} (c d : ℕ)
    (hU : LinesDisjoint n st start {k | k.1 < c ∧ k.2 < d}) (g : ℕ → ℕ → Mem K → Mem K)
    (hg : ∀ q < c, ∀ r < d, ∀ m, Effect n st start f {(q, r)} m (g q r m)) (m : Mem K) :
    Effect n st start f {k | k.1 < c ∧ k.2 < d} m (forN (fun q m => forN (g q) m d) m c) := by
  have inner : ∀ q < c, ∀ m, Effect n st start f {k | k.1 = q ∧ k.2 < d} m (forN (g q) m d) := by
    intro q hq m
    have e : {k : ℕ × ℕ | k.1 = q ∧ k.2 < d} = {k | ∃ r < d, k ∈ ({(q, r)} : Set (ℕ × ℕ))} := by
      ext ⟨a, b⟩; simp only [Set.mem_setOf_eq, Set.mem_singleton_iff, Prod.mk.injEq]
      constructor
      · rintro ⟨rfl, h⟩; exact ⟨b, h, rfl, rfl⟩
      · rintro ⟨r, h, rfl, rfl⟩; exact ⟨rfl, h⟩
    rw [e]
    refine Effect.loop hU (g q) (fun r => {(q, r)}) d ?_ ?_ (fun r hr => hg q hq r hr) m
    · intro r hr k hk; simp only [Set.mem_singleton_iff] at hk; subst hk; exact ⟨hq, hr⟩
    · intro r _ s hs k hk hk'; simp only [Set.mem_singleton_iff] at hk hk'; subst hk
      simp only [Prod.mk.injEq, true_and] at hk'; omega
  have e : {k : ℕ × ℕ | k.1 < c ∧ k.2 < d} = {k | ∃ q < c, k ∈ {k : ℕ × ℕ | k.1 = q ∧ k.2 < d}} := by
    ext ⟨a, b⟩; simp only [Set.mem_setOf_eq]
    constructor
    · rintro ⟨h, h'⟩; exact ⟨a, h, rfl, h'⟩
    · rintro ⟨q, h, rfl, h'⟩; exact ⟨h, h'⟩
  rw [e] at hU ⊢
  refine Effect.loop hU (fun q m => forN (g q) m d) _ c ?_ ?_ inner m
  · intro q hq k hk; exact ⟨q, hq, hk⟩
  · rintro q _ r hr k ⟨hk, -⟩ ⟨hk', -⟩; omega

/-- The two-dimensional array of shape `(·, s1)` stored at `p`. -/
def view2 (p : ℤ) (s1 : ℕ) (m : Mem K) (i j : ℕ) : K := m (addr2 p s1 i j)

/-- The three-dimensional array of shape `(·, s1, s2)` stored at `p`. -/
def view3 (p : ℤ) (s1 s2 : ℕ) (m : Mem K) (i j k : ℕ) : K := m (addr3 p s1 s2 i j k)

/-- **C80** Compiled `SolverGeneric1ND_solve_data` in two dimensions, along the first axis. -/
theorem C80_solveData2D_axis0 (s0 s1 n : ℕ) (hn : n ≤ s0) (z : Bool) (f : ℕ → (ℕ → K) → ℕ → K) (sol : ℕ → Kernel K)
    (h : ∀ j < s1, LineKernel n (f j) (sol j)) (p : ℤ) (m : Mem K) :
    (∀ i < s0, ∀ j < s1, view2 p s1 (Cy.solveData2D s0 s1 z sol 0 p m) i j =
      if j = 0 ∧ z = true then view2 p s1 m i j else head n (f j) (fun i => view2 p s1 m i j) i) ∧
    ∀ a, (∀ i < s0, ∀ j < s1, a ≠ addr2 p s1 i j) → Cy.solveData2D s0 s1 z sol 0 p m a = m a := by
  rcases Nat.eq_zero_or_pos s1 with rfl | hs
  · exact ⟨fun _ _ _ h => absurd h (by omega), fun _ _ => rfl⟩
  set start : ℕ → ℤ := fun j => p + j
  set f' : ℕ → (ℕ → K) → ℕ → K := fun j => if j = 0 ∧ z = true then id else f j
  have ha : ∀ i j : ℕ, addr2 p s1 i j = start j + i * (s1:ℤ) := by intro i j; simp only [addr2, start]; ring
  have inj : ∀ k ∈ {k : ℕ | k < s1}, ∀ l ∈ {k : ℕ | k < s1}, ∀ i < s0, ∀ j < s0,
      start k + (i:ℕ) * (s1:ℤ) = start l + (j:ℕ) * (s1:ℤ) → k = l ∧ i = j := by
    intro k hk l hl i _ j _ e
    rw [← ha, ← ha] at e
    exact (addr2_inj hk hl e).symm
  have E : Effect n (s1:ℤ) start f' {k | k < s1} m (Cy.solveData2D s0 s1 z sol 0 p m) := by
    unfold Cy.solveData2D
    rw [if_pos rfl]
    refine Effect.lines s1 (linesDisjoint_of_inj hn inj) _ (fun q hq m => ?_) m
    split_ifs with hz
    · exact Effect.skip q (by intro v; simp [f', hz]) m
    · refine LineKernel.effect (by omega) q ?_ rfl m
      simp only [f', if_neg hz]; exact h q hq
  constructor
  · intro i hi j hj
    have := Effect.view hn inj E j hj i hi
    simp only [view2, ha]
    rw [this]
    simp only [f']
    split_ifs with hz
    · simp [head]
    · rfl
  · intro a hna
    refine E.rest a fun k hk => ?_
    rintro ⟨i, hi, rfl⟩
    exact hna i (by omega) k hk (ha i k).symm

/-- **C80** Compiled `SolverGeneric1ND_solve_data` in two dimensions, along the second axis. -/
theorem C80_solveData2D_axis1 (s0 s1 n : ℕ) (hn : n ≤ s1) (z : Bool) (f : ℕ → (ℕ → K) → ℕ → K) (sol : ℕ → Kernel K)
    (h : ∀ i < s0, LineKernel n (f i) (sol i)) (p : ℤ) (m : Mem K) :
    (∀ i < s0, ∀ j < s1, view2 p s1 (Cy.solveData2D s0 s1 z sol 1 p m) i j =
      if i = 0 ∧ z = true then view2 p s1 m i j else head n (f i) (fun j => view2 p s1 m i j) j) ∧
    ∀ a, (∀ i < s0, ∀ j < s1, a ≠ addr2 p s1 i j) → Cy.solveData2D s0 s1 z sol 1 p m a = m a := by
  set start : ℕ → ℤ := fun i => p + i * s1
  set f' : ℕ → (ℕ → K) → ℕ → K := fun j => if j = 0 ∧ z = true then id else f j
  have ha : ∀ i j : ℕ, addr2 p s1 i j = start i + j * (1:ℤ) := by intro i j; simp only [addr2, start]; ring
  have inj : ∀ k ∈ {k : ℕ | k < s0}, ∀ l ∈ {k : ℕ | k < s0}, ∀ i < s1, ∀ j < s1,
      start k + (i:ℕ) * (1:ℤ) = start l + (j:ℕ) * (1:ℤ) → k = l ∧ i = j := by
    intro k hk l hl i hi j hj e
    rw [← ha, ← ha] at e
    exact addr2_inj hi hj e
  have E : Effect n (1:ℤ) start f' {k | k < s0} m (Cy.solveData2D s0 s1 z sol 1 p m) := by
    unfold Cy.solveData2D
    rw [if_neg (by omega), if_pos rfl]
    refine Effect.lines s0 (linesDisjoint_of_inj hn inj) _ (fun q hq m => ?_) m
    split_ifs with hz
    · exact Effect.skip q (by intro v; simp [f', hz]) m
    · refine LineKernel.effect (by omega) q ?_ rfl m
      simp only [f', if_neg hz]; exact h q hq
  constructor
  · intro i hi j hj
    have := Effect.view hn inj E i hi j hj
    simp only [view2, ha]
    rw [this]
    simp only [f']
    split_ifs with hz
    · simp [head]
    · rfl
  · intro a hna
    refine E.rest a fun k hk => ?_
    rintro ⟨i, hi, rfl⟩
    exact hna k hk i (by omega) (ha k i).symm

/-- **C80** Compiled `SolverGeneric1ND_solve_data` in three dimensions, along the first axis. -/
theorem C80_solveData3D_axis0 (s0 s1 s2 n : ℕ) (hn : n ≤ s0) (z : Bool) (f : ℕ → ℕ → (ℕ → K) → ℕ → K) (sol : ℕ → ℕ → Kernel K)
    (h : ∀ j < s1, ∀ k < s2, LineKernel n (f j k) (sol j k)) (p : ℤ) (m : Mem K) :
    (∀ i < s0, ∀ j < s1, ∀ k < s2, view3 p s1 s2 (Cy.solveData3D s0 s1 s2 z sol 0 p m) i j k =
      if j = 0 ∧ k = 0 ∧ z = true then view3 p s1 s2 m i j k else head n (f j k) (fun i => view3 p s1 s2 m i j k) i) ∧
    ∀ a, (∀ i < s0, ∀ j < s1, ∀ k < s2, a ≠ addr3 p s1 s2 i j k) → Cy.solveData3D s0 s1 s2 z sol 0 p m a = m a := by
  set start : ℕ × ℕ → ℤ := fun q => p + (q.1 * s2 + q.2)
  set f' : ℕ × ℕ → (ℕ → K) → ℕ → K := fun q => if q.1 = 0 ∧ q.2 = 0 ∧ z = true then id else f q.1 q.2
  have ha : ∀ i j k : ℕ, addr3 p s1 s2 i j k = start (j, k) + i * ((s1:ℤ) * s2) := by
    intro i j k; simp only [addr3, start]; ring
  have inj : ∀ k ∈ {k : ℕ × ℕ | k.1 < s1 ∧ k.2 < s2}, ∀ l ∈ {k : ℕ × ℕ | k.1 < s1 ∧ k.2 < s2}, ∀ i < s0, ∀ j < s0,
      start k + (i:ℕ) * ((s1:ℤ) * s2) = start l + (j:ℕ) * ((s1:ℤ) * s2) → k = l ∧ i = j := by
    rintro ⟨k1, k2⟩ ⟨hk1, hk2⟩ ⟨l1, l2⟩ ⟨hl1, hl2⟩ i _ j _ e
    rw [← ha, ← ha] at e
    obtain ⟨e1, e2, e3⟩ := addr3_inj hk1 hl1 hk2 hl2 e
    exact ⟨Prod.ext e2 e3, e1⟩
  have E : Effect n ((s1:ℤ) * s2) start f' {k | k.1 < s1 ∧ k.2 < s2} m (Cy.solveData3D s0 s1 s2 z sol 0 p m) := by
    unfold Cy.solveData3D
    rw [if_pos rfl]
    refine Effect.lines2 s1 s2 (linesDisjoint_of_inj hn inj) _ (fun q hq r hr m => ?_) m
    split_ifs with hz
    · exact Effect.skip (q, r) (by intro v; simp [f', hz]) m
    · refine LineKernel.effect (mul_ne_zero (by omega) (by omega)) (q, r) ?_ rfl m
      simp only [f', if_neg hz]; exact h q hq r hr
  constructor
  · intro i hi j hj k hk
    have := Effect.view hn inj E (j, k) ⟨hj, hk⟩ i hi
    simp only [view3, ha]
    rw [this]
    simp only [f']
    split_ifs with hz
    · simp [head]
    · rfl
  · intro a hna
    refine E.rest a fun k hk => ?_
    rintro ⟨i, hi, rfl⟩
    exact hna i (by omega) k.1 hk.1 k.2 hk.2 (ha i k.1 k.2).symm

/-- **C80** Compiled `SolverGeneric1ND_solve_data` in three dimensions, along the second axis. -/
theorem C80_solveData3D_axis1 (s0 s1 s2 n : ℕ) (hn : n ≤ s1) (z : Bool) (f : ℕ → ℕ → (ℕ → K) → ℕ → K) (sol : ℕ → ℕ → Kernel K)
    (h : ∀ i < s0, ∀ k < s2, LineKernel n (f i k) (sol i k)) (p : ℤ) (m : Mem K) :
    (∀ i < s0, ∀ j < s1, ∀ k < s2, view3 p s1 s2 (Cy.solveData3D s0 s1 s2 z sol 1 p m) i j k =
      if i = 0 ∧ k = 0 ∧ z = true then view3 p s1 s2 m i j k else head n (f i k) (fun j => view3 p s1 s2 m i j k) j) ∧
    ∀ a, (∀ i < s0, ∀ j < s1, ∀ k < s2, a ≠ addr3 p s1 s2 i j k) → Cy.solveData3D s0 s1 s2 z sol 1 p m a = m a := by
  set start : ℕ × ℕ → ℤ := fun q => p + (q.1 * (s1 * s2) + q.2)
  set f' : ℕ × ℕ → (ℕ → K) → ℕ → K := fun q => if q.1 = 0 ∧ q.2 = 0 ∧ z = true then id else f q.1 q.2
  have ha : ∀ i j k : ℕ, addr3 p s1 s2 i j k = start (i, k) + j * (s2:ℤ) := by
    intro i j k; simp only [addr3, start]; ring
  have inj : ∀ k ∈ {k : ℕ × ℕ | k.1 < s0 ∧ k.2 < s2}, ∀ l ∈ {k : ℕ × ℕ | k.1 < s0 ∧ k.2 < s2}, ∀ i < s1, ∀ j < s1,
      start k + (i:ℕ) * (s2:ℤ) = start l + (j:ℕ) * (s2:ℤ) → k = l ∧ i = j := by
    rintro ⟨k1, k2⟩ ⟨hk1, hk2⟩ ⟨l1, l2⟩ ⟨hl1, hl2⟩ i hi j hj e
    rw [← ha, ← ha] at e
    obtain ⟨e1, e2, e3⟩ := addr3_inj hi hj hk2 hl2 e
    exact ⟨Prod.ext e1 e3, e2⟩
  have E : Effect n (s2:ℤ) start f' {k | k.1 < s0 ∧ k.2 < s2} m (Cy.solveData3D s0 s1 s2 z sol 1 p m) := by
    unfold Cy.solveData3D
    rw [if_neg (by omega), if_pos rfl]
    refine Effect.lines2 s0 s2 (linesDisjoint_of_inj hn inj) _ (fun q hq r hr m => ?_) m
    split_ifs with hz
    · exact Effect.skip (q, r) (by intro v; simp [f', hz]) m
    · refine LineKernel.effect (by omega) (q, r) ?_ rfl m
      simp only [f', if_neg hz]; exact h q hq r hr
  constructor
  · intro i hi j hj k hk
    have := Effect.view hn inj E (i, k) ⟨hi, hk⟩ j hj
    simp only [view3, ha]
    rw [this]
    simp only [f']
    split_ifs with hz
    · simp [head]
    · rfl
  · intro a hna
    refine E.rest a fun k hk => ?_
    rintro ⟨i, hi, rfl⟩
    exact hna k.1 hk.1 i (by omega) k.2 hk.2 (ha k.1 i k.2).symm

/-- **C80** Compiled `SolverGeneric1ND_solve_data` in three dimensions, along the third axis. -/
theorem C80_solveData3D_axis2 (s0 s1 s2 n : ℕ) (hn : n ≤ s2) (z : Bool) (f : ℕ → ℕ → (ℕ → K) → ℕ → K) (sol : ℕ → ℕ → Kernel K)
    (h : ∀ i < s0, ∀ j < s1, LineKernel n (f i j) (sol i j)) (p : ℤ) (m : Mem K) :
    (∀ i < s0, ∀ j < s1, ∀ k < s2, view3 p s1 s2 (Cy.solveData3D s0 s1 s2 z sol 2 p m) i j k =
      if i = 0 ∧ j = 0 ∧ z = true then view3 p s1 s2 m i j k else head n (f i j) (fun k => view3 p s1 s2 m i j k) k) ∧
    ∀ a, (∀ i < s0, ∀ j < s1, ∀ k < s2, a ≠ addr3 p s1 s2 i j k) → Cy.solveData3D s0 s1 s2 z sol 2 p m a = m a := by
  set start : ℕ × ℕ → ℤ := fun q => p + (q.1 * (s1 * s2) + q.2 * s2)
  set f' : ℕ × ℕ → (ℕ → K) → ℕ → K := fun q => if q.1 = 0 ∧ q.2 = 0 ∧ z = true then id else f q.1 q.2
  have ha : ∀ i j k : ℕ, addr3 p s1 s2 i j k = start (i, j) + k * (1:ℤ) := by
    intro i j k; simp only [addr3, start]; ring
  have inj : ∀ k ∈ {k : ℕ × ℕ | k.1 < s0 ∧ k.2 < s1}, ∀ l ∈ {k : ℕ × ℕ | k.1 < s0 ∧ k.2 < s1}, ∀ i < s2, ∀ j < s2,
      start k + (i:ℕ) * (1:ℤ) = start l + (j:ℕ) * (1:ℤ) → k = l ∧ i = j := by
    rintro ⟨k1, k2⟩ ⟨hk1, hk2⟩ ⟨l1, l2⟩ ⟨hl1, hl2⟩ i hi j hj e
    rw [← ha, ← ha] at e
    obtain ⟨e1, e2, e3⟩ := addr3_inj hk2 hl2 hi hj e
    exact ⟨Prod.ext e1 e2, e3⟩
  have E : Effect n (1:ℤ) start f' {k | k.1 < s0 ∧ k.2 < s1} m (Cy.solveData3D s0 s1 s2 z sol 2 p m) := by
    unfold Cy.solveData3D
    rw [if_neg (by omega), if_neg (by omega), if_pos rfl]
    refine Effect.lines2 s0 s1 (linesDisjoint_of_inj hn inj) _ (fun q hq r hr m => ?_) m
    split_ifs with hz
    · exact Effect.skip (q, r) (by intro v; simp [f', hz]) m
    · refine LineKernel.effect (by omega) (q, r) ?_ rfl m
      simp only [f', if_neg hz]; exact h q hq r hr
  constructor
  · intro i hi j hj k hk
    have := Effect.view hn inj E (i, j) ⟨hi, hj⟩ k hk
    simp only [view3, ha]
    rw [this]
    simp only [f']
    split_ifs with hz
    · simp [head]
    · rfl
  · intro a hna
    refine E.rest a fun k hk => ?_
    rintro ⟨i, hi, rfl⟩
    exact hna k.1 hk.1 k.2 hk.2 i (by omega) (ha k.1 k.2 i).symm

theorem Cy.solveAxis2D_eq (s0 s1 : ℕ) (sol : Kernel K) (naxes : ℕ) (p : ℤ) (m : Mem K) :
    Cy.solveAxis2D s0 s1 sol naxes p m = Cy.solveData2D s0 s1 false (fun _ => sol) naxes p m := by
  simp [Cy.solveAxis2D, Cy.solveData2D]

theorem Cy.solveAxis3D_eq (s0 s1 s2 : ℕ) (sol : Kernel K) (naxes : ℕ) (p : ℤ) (m : Mem K) :
    Cy.solveAxis3D s0 s1 s2 sol naxes p m = Cy.solveData3D s0 s1 s2 false (fun _ _ => sol) naxes p m := by
  simp [Cy.solveAxis3D, Cy.solveData3D]

/-- **C80** `XXX_Solve(u, data, axis)` on a one-dimensional C-contiguous array. -/
theorem C80_solve1D (s n : ℕ) (hn : n ≤ s) (f : (ℕ → K) → ℕ → K) (sol : Kernel K) (h : LineKernel n f sol) (p : ℤ) (m : Mem K) :
    (∀ i < s, Cy.solve [s] sol 0 p m (p + (i:ℕ)) = head n f (fun i => m (p + (i:ℕ))) i) ∧
    ∀ a, (∀ i < s, a ≠ p + (i:ℕ)) → Cy.solve [s] sol 0 p m a = m a := by
  obtain ⟨h1, h2⟩ := h p 1 (by omega) m
  simp only [mul_one] at h1
  constructor
  · intro i hi
    unfold Cy.solve head
    split_ifs with hin
    · exact h1 (fun i => m (p + (i:ℕ))) (fun _ _ => rfl) i hin
    · refine h2 _ ?_
      rintro ⟨j, hj, e⟩
      omega
  · intro a ha
    refine h2 a ?_
    rintro ⟨j, hj, e⟩
    exact ha j (by omega) (by omega)

/-- **C80** `XXX_Solve(u, data, axis)` on a two-dimensional C-contiguous array of shape `(s0, s1)`: along the chosen axis every
line of the array becomes what the one-dimensional solver makes of it (the entries beyond the matrix stay), and no memory
outside the array is written. -/
theorem C80_solve2D (s0 s1 n : ℕ) (f : (ℕ → K) → ℕ → K) (sol : Kernel K) (h : LineKernel n f sol) (p : ℤ) (m : Mem K) :
    (n ≤ s0 → (∀ i < s0, ∀ j < s1, view2 p s1 (Cy.solve [s0, s1] sol 0 p m) i j = head n f (fun i => view2 p s1 m i j) i) ∧
      ∀ a, (∀ i < s0, ∀ j < s1, a ≠ addr2 p s1 i j) → Cy.solve [s0, s1] sol 0 p m a = m a) ∧
    (n ≤ s1 → (∀ i < s0, ∀ j < s1, view2 p s1 (Cy.solve [s0, s1] sol 1 p m) i j = head n f (fun j => view2 p s1 m i j) j) ∧
      ∀ a, (∀ i < s0, ∀ j < s1, a ≠ addr2 p s1 i j) → Cy.solve [s0, s1] sol 1 p m a = m a) := by
  constructor <;> intro hn <;> simp only [Cy.solve, Cy.solveAxis2D_eq]
  · simpa using C80_solveData2D_axis0 s0 s1 n hn false (fun _ => f) (fun _ => sol) (fun _ _ => h) p m
  · simpa using C80_solveData2D_axis1 s0 s1 n hn false (fun _ => f) (fun _ => sol) (fun _ _ => h) p m

/-- **C80** The same for a three-dimensional C-contiguous array of shape `(s0, s1, s2)`. -/
theorem C80_solve3D (s0 s1 s2 n : ℕ) (f : (ℕ → K) → ℕ → K) (sol : Kernel K) (h : LineKernel n f sol) (p : ℤ) (m : Mem K) :
    (n ≤ s0 → (∀ i < s0, ∀ j < s1, ∀ k < s2, view3 p s1 s2 (Cy.solve [s0, s1, s2] sol 0 p m) i j k =
        head n f (fun i => view3 p s1 s2 m i j k) i) ∧
      ∀ a, (∀ i < s0, ∀ j < s1, ∀ k < s2, a ≠ addr3 p s1 s2 i j k) → Cy.solve [s0, s1, s2] sol 0 p m a = m a) ∧
    (n ≤ s1 → (∀ i < s0, ∀ j < s1, ∀ k < s2, view3 p s1 s2 (Cy.solve [s0, s1, s2] sol 1 p m) i j k =
        head n f (fun j => view3 p s1 s2 m i j k) j) ∧
      ∀ a, (∀ i < s0, ∀ j < s1, ∀ k < s2, a ≠ addr3 p s1 s2 i j k) → Cy.solve [s0, s1, s2] sol 1 p m a = m a) ∧
    (n ≤ s2 → (∀ i < s0, ∀ j < s1, ∀ k < s2, view3 p s1 s2 (Cy.solve [s0, s1, s2] sol 2 p m) i j k =
        head n f (fun k => view3 p s1 s2 m i j k) k) ∧
      ∀ a, (∀ i < s0, ∀ j < s1, ∀ k < s2, a ≠ addr3 p s1 s2 i j k) → Cy.solve [s0, s1, s2] sol 2 p m a = m a) := by
  refine ⟨?_, ?_, ?_⟩ <;> intro hn <;> simp only [Cy.solve, Cy.solveAxis3D_eq]
  · simpa using C80_solveData3D_axis0 s0 s1 s2 n hn false (fun _ _ => f) (fun _ _ => sol) (fun _ _ _ _ => h) p m
  · simpa using C80_solveData3D_axis1 s0 s1 s2 n hn false (fun _ _ => f) (fun _ _ => sol) (fun _ _ _ _ => h) p m
  · simpa using C80_solveData3D_axis2 s0 s1 s2 n hn false (fun _ _ => f) (fun _ _ => sol) (fun _ _ _ _ => h) p m

/-- **C80** All solver classes: the compiled kernel of a class does to a line in memory what the Python `inner_solve` of the class
does to a one-dimensional array. -/
theorem C80_kernel (k : Kind) (n : ℕ) (hn : k.minSize ≤ n) (dat : ℤ → K) (D : Dia K) (hD : RowMajor dat D k.offs.length n) :
    LineKernel n (k.sweep n D) (k.kernel dat n) := by
  cases k with
  | diag => exact C80_diagma n dat D hD
  | tdma => exact C80_tdma n hn dat D hD
  | tdmaO => exact C80_tdmaO n hn dat D hD
  | pdma => exact C80_pdma n hn dat D hD
  | fdma => exact C80_fdma n hn dat D hD
  | two => exact C80_twodma n hn dat D hD
  | three => exact C80_threedma n hn dat D fun r hr => hD r (lt_trans hr (by decide))
  | hepta => exact C80_heptadma n hn dat D hD

theorem isTheSolution_head (k : Kind) (hk : k ≠ .three) (n : ℕ) (hn : k.minSize ≤ n) (data : Dia K)
    (he : Spec.Eliminable n (Spec.diaEntry k.offs data)) (b : ℕ → K) :
    Spec.IsTheSolution n (Spec.diaEntry k.offs data) b (head n (k.sweep n (k.factor n data)) b) := by
  have h := Kind.solves k hk n hn data he b
  have : head n (k.sweep n (k.factor n data)) b = k.sweep n (k.factor n data) b := by
    funext i
    unfold head
    split_ifs with hi
    · rfl
    · exact (h.2.2 i (by omega)).symm
  rw [this]; exact h

/-- **C80** Default configuration, two-dimensional array: after the compiled `LU` and the compiled `Solve` along either axis every
line is the solution of the banded system with the line as right-hand side. -/
theorem C80_default_mode2D (k : Kind) (hk : k ≠ .three) (n : ℕ) (hn : k.minSize ≤ n) (data : Dia K)
    (he : Spec.Eliminable n (Spec.diaEntry k.offs data)) (dat : ℤ → K) (hD : RowMajor dat (k.factor n data) k.offs.length n)
    (s0 s1 : ℕ) (p : ℤ) (m : Mem K) :
    (n ≤ s0 → ∀ j < s1, ∃ x, Spec.IsTheSolution n (Spec.diaEntry k.offs data) (fun i => view2 p s1 m i j) x ∧
      ∀ i < s0, view2 p s1 (Cy.solve [s0, s1] (k.kernel dat n) 0 p m) i j = x i) ∧
    (n ≤ s1 → ∀ i < s0, ∃ x, Spec.IsTheSolution n (Spec.diaEntry k.offs data) (fun j => view2 p s1 m i j) x ∧
      ∀ j < s1, view2 p s1 (Cy.solve [s0, s1] (k.kernel dat n) 1 p m) i j = x j) := by
  obtain ⟨h0, h1⟩ := C80_solve2D s0 s1 n _ _ (C80_kernel k n hn dat _ hD) p m
  exact ⟨fun h j hj => ⟨_, isTheSolution_head k hk n hn data he _, fun i hi => (h0 h).1 i hi j hj⟩,
    fun h i hi => ⟨_, isTheSolution_head k hk n hn data he _, fun j hj => (h1 h).1 i hi j hj⟩⟩

/-- **C80** Default configuration, three-dimensional array. -/
theorem C80_default_mode3D (k : Kind) (hk : k ≠ .three) (n : ℕ) (hn : k.minSize ≤ n) (data : Dia K)
    (he : Spec.Eliminable n (Spec.diaEntry k.offs data)) (dat : ℤ → K) (hD : RowMajor dat (k.factor n data) k.offs.length n)
    (s0 s1 s2 : ℕ) (p : ℤ) (m : Mem K) :
    (n ≤ s0 → ∀ j < s1, ∀ l < s2, ∃ x, Spec.IsTheSolution n (Spec.diaEntry k.offs data) (fun i => view3 p s1 s2 m i j l) x ∧
      ∀ i < s0, view3 p s1 s2 (Cy.solve [s0, s1, s2] (k.kernel dat n) 0 p m) i j l = x i) ∧
    (n ≤ s1 → ∀ i < s0, ∀ l < s2, ∃ x, Spec.IsTheSolution n (Spec.diaEntry k.offs data) (fun j => view3 p s1 s2 m i j l) x ∧
      ∀ j < s1, view3 p s1 s2 (Cy.solve [s0, s1, s2] (k.kernel dat n) 1 p m) i j l = x j) ∧
    (n ≤ s2 → ∀ i < s0, ∀ j < s1, ∃ x, Spec.IsTheSolution n (Spec.diaEntry k.offs data) (fun l => view3 p s1 s2 m i j l) x ∧
      ∀ l < s2, view3 p s1 s2 (Cy.solve [s0, s1, s2] (k.kernel dat n) 2 p m) i j l = x l) := by
  obtain ⟨h0, h1, h2⟩ := C80_solve3D s0 s1 s2 n _ _ (C80_kernel k n hn dat _ hD) p m
  exact ⟨fun h j hj l hl => ⟨_, isTheSolution_head k hk n hn data he _, fun i hi => (h0 h).1 i hi j hj l hl⟩,
    fun h i hi l hl => ⟨_, isTheSolution_head k hk n hn data he _, fun j hj => (h1 h).1 i hi j hj l hl⟩,
    fun h i hi j hj => ⟨_, isTheSolution_head k hk n hn data he _, fun l hl => (h2 h).1 i hi j hj l hl⟩⟩

/-- **C80** `DiagMA_Solve` agrees with the Python solver when the array is exactly as long as the matrix along the axis. -/
theorem C80_diagmaSolve (s0 s1 : ℕ) (dat : ℤ → K) (D : Dia K) (p : ℤ) (m : Mem K) :
    (RowMajor dat D 1 s0 → ∀ i < s0, ∀ j < s1, view2 p s1 (diagmaSolve [s0, s1] dat s0 0 p m) i j = view2 p s1 m i j / D 0 i) ∧
    (RowMajor dat D 1 s1 → ∀ i < s0, ∀ j < s1, view2 p s1 (diagmaSolve [s0, s1] dat s1 1 p m) i j = view2 p s1 m i j / D 0 j) := by
  constructor <;> intro hD i hi j hj
  · have := (((C80_solve2D s0 s1 s0 _ _ (C80_diagma s0 dat D hD) p m).1 le_rfl).1 i hi j hj)
    simpa [head, hi, DiagMA.innerSolve, Cy.solve, diagmaSolve] using this
  · have := (((C80_solve2D s0 s1 s1 _ _ (C80_diagma s1 dat D hD) p m).2 le_rfl).1 i hi j hj)
    simpa [head, hj, DiagMA.innerSolve, Cy.solve, diagmaSolve] using this

/-- The hypotheses of `C80_default_mode2D` are met by a size-7 pentadiagonal matrix stored in a flat array. -/
example : ∃ (data : Dia ℚ) (dat : ℤ → ℚ), Spec.Eliminable 7 (Spec.diaEntry (Kind.offs .pdma) data) ∧ Kind.minSize .pdma ≤ 7 ∧
    RowMajor dat (Kind.factor .pdma 7 data) (Kind.offs .pdma).length 7 := by
  have h : ∃ data : Dia ℚ, Spec.Eliminable 7 (Spec.diaEntry (Kind.offs .pdma) data) ∧ Kind.minSize .pdma ≤ 7 :=
    ⟨exPenta, by
      refine eliminable_of_witness (isLU_band 7 2 4 2 4 6 8 (fun _ => 1) (fun _ => 1) (fun _ => 1) (fun _ => 1)
        (fun _ => 1) (fun _ => 0) (fun _ => 0) (by omega) (by omega)) ?_ ?_ <;> decide +kernel, by decide⟩
  obtain ⟨data, h1, h2⟩ := h
  refine ⟨data, fun a => Kind.factor .pdma 7 data (a / 7).toNat (a % 7).toNat, h1, h2, ?_⟩
  intro r _ c hc
  have e1 : ((r:ℤ) * (7:ℕ) + c) / 7 = r := by omega
  have e2 : ((r:ℤ) * (7:ℕ) + c) % 7 = c := by omega
  beta_reduce
  rw [e1, e2, Int.toNat_natCast, Int.toNat_natCast]

/-- **C80** (refutation) A four-dimensional array is left unchanged, whatever the kernel and the axis: no error, no solution.
(The Python and the Numba solvers do solve: `C35_axis4D`.) -/
theorem C80_no_4D (s0 s1 s2 s3 : ℕ) (sol : Kernel K) (axis : ℕ) (p : ℤ) (m : Mem K) :
    Cy.solve [s0, s1, s2, s3] sol axis p m = m := rfl

/-- **C80** (refutation) `DiagMA_Solve` on a two-dimensional array longer than the matrix: the entry beyond the matrix is divided
by whatever follows the diagonal in memory, where every other solver (and the Python `DiagMA`) leaves it. -/
theorem C80_diagma_beyond :
    ∃ (dat : ℤ → ℚ) (m : Mem ℚ), RowMajor dat (fun _ _ => 2) 1 2 ∧
      view2 0 1 (diagmaSolve [3, 1] dat 2 0 0 m) 2 0 ≠ view2 0 1 m 2 0 ∧
      view2 0 1 (Cy.solve [3, 1] (diagma dat 2) 0 0 m) 2 0 = view2 0 1 m 2 0 := by
  refine ⟨fun a => if a < 2 then 2 else 7, fun _ => 1, ?_, ?_, ?_⟩
  · intro r hr c hc
    have : r = 0 := by omega
    subst this
    simp; omega
  · simp [view2, addr2, diagmaSolve, Cy.solveAxis2D, diagma, forN, Cy.wr, Cy.rd, Function.update_apply]
  · simp [view2, addr2, Cy.solve, Cy.solveAxis2D, diagma, forN, Cy.wr, Cy.rd, Function.update_apply]

/-- **C80** (refutation) The compiled `TDMA` with a 1×1 matrix writes the cell before the line (`d[n-2]` and `u[(n-2)*st]` are
outside the arrays). -/
theorem C80_tdma_one :
    ∃ (dat : ℤ → ℚ) (m : Mem ℚ), tdma dat 1 0 1 m (-1) ≠ m (-1) := by
  refine ⟨fun _ => 2, fun _ => 1, ?_⟩
  norm_num [tdma, forN, Cy.wr, Cy.rd, Function.update_apply]

/-- A 3×2 array at address 5, axis 0, matrix of size 3 with diagonal 2: every entry is halved and the cell after it is kept. -/
example : view2 5 2 (Cy.solve [3, 2] (diagma (fun _ => (2:ℚ)) 3) 0 5 (fun a => a)) 1 1 = 4 ∧
    Cy.solve [3, 2] (diagma (fun _ => (2:ℚ)) 3) 0 5 (fun a => a) 11 = 11 := by
  have h := C80_diagma 3 (fun _ => (2:ℚ)) (fun _ _ => 2) (fun _ _ _ _ => rfl)
  obtain ⟨h1, h2⟩ := (C80_solve2D 3 2 3 _ _ h 5 (fun a => (a:ℚ))).1 (by omega)
  constructor
  · rw [h1 1 (by omega) 1 (by omega)]
    norm_num [head, DiagMA.innerSolve, view2, addr2]
  · rw [h2 11]
    · norm_num
    · intro i hi j hj; unfold addr2; push_cast; omega

end Shenfun
