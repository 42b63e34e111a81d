import Verif.Model.Banded
import Verif.Lemmas.Sweep
import Verif.Lemmas.TDMA

set_option linter.unusedSimpArgs false
set_option linter.unusedVariables false

namespace Shenfun

variable {K : Type*} [Field K]

theorem fwd_pre (n : ℕ) (hn : 4 ≤ n) (l1 l2 : ℕ → K) (b : ℕ → K) :
    forN (fun q u => Function.update u (4+q) (u (4+q) - (l1 (4+q-2) * u (4+q-2) + l2 (4+q-4) * u (4+q-4))))
      (Function.update (Function.update b 2 (b 2 - l1 0 * b 0)) 3
        ((Function.update b 2 (b 2 - l1 0 * b 0)) 3 - l1 1 * (Function.update b 2 (b 2 - l1 0 * b 0)) 1)) (n-4)
    = fwdSub n l1 l2 b := by
  unfold fwdSub
  have : n - 2 = 2 + (n - 4) := by omega
  rw [this, sweep_up_split (fwdRow l1 l2) b 2 (n-4) 2]
  have hs : forN (fun k u => Function.update u (2+k) (fwdRow l1 l2 (2+k) u)) b 2 =
      Function.update (Function.update b 2 (b 2 - l1 0 * b 0)) 3
        ((Function.update b 2 (b 2 - l1 0 * b 0)) 3 - l1 1 * (Function.update b 2 (b 2 - l1 0 * b 0)) 1) := by
    simp [forN, fwdRow]
  rw [hs]
  apply forN_congr
  intro k hk t
  unfold fwdRow
  ifs

theorem backSub_split (m c : ℕ) (d e f g h y : ℕ → K) :
    backSub (m+c) d e f g h y =
      forN (fun k u => Function.update u (m-1-k) (backRow (m+c) d e f g h (m-1-k) u))
        (forN (fun k u => Function.update u (m+c-1-k) (backRow (m+c) d e f g h (m+c-1-k) u)) y c) m := by
  unfold backSub
  rw [← sweep_down_split, Nat.add_comm c m]

theorem back2 (n : ℕ) (hn : 2 ≤ n) (d e : ℕ → K) (y : ℕ → K) :
    (let u := y
     let u := Function.update u (n-1) (u (n-1) / d (n-1))
     let u := Function.update u (n-2) (u (n-2) / d (n-2))
     forN (fun q u => let k := n-2-1-q
       Function.update u k ((u k - e (k+2) * u (k+2)) / d k)) u (n-2))
    = backSub n d e (fun _ => 0) (fun _ => 0) (fun _ => 0) y := by
  obtain ⟨m, rfl⟩ : ∃ m, n = m + 2 := ⟨n-2, by omega⟩
  rw [backSub_split]
  have e1 : m + 2 - 1 = m + 1 := by omega
  have e2 : m + 2 - 2 = m := by omega
  have hs : forN (fun k u => Function.update u (m+2-1-k)
      (backRow (m+2) d e (fun _ => 0) (fun _ => 0) (fun _ => 0) (m+2-1-k) u)) y 2 =
     (let u := y
      let u := Function.update u (m+1) (u (m+1) / d (m+1))
      Function.update u m (u m / d m)) := by
    simp only [forN, backRow, e1, Nat.sub_zero, Nat.add_sub_cancel]
    simp
  rw [hs]
  simp only [e1, e2]
  apply forN_congr
  intro k hk t
  unfold backRow
  ifs
  simp

theorem back4 (n : ℕ) (hn : 4 ≤ n) (d e f : ℕ → K) (y : ℕ → K) :
    (let u := y
     let u := Function.update u (n-1) (u (n-1) / d (n-1))
     let u := Function.update u (n-2) (u (n-2) / d (n-2))
     let u := Function.update u (n-3) ((u (n-3) - e (n-3+2) * u (n-1)) / d (n-3))
     let u := Function.update u (n-4) ((u (n-4) - e (n-4+2) * u (n-2)) / d (n-4))
     forN (fun q u => let k := n-4-1-q
       Function.update u k ((u k - e (k+2) * u (k+2) - f (k+4) * u (k+4)) / d k)) u (n-4))
    = backSub n d e f (fun _ => 0) (fun _ => 0) y := by
  obtain ⟨m, rfl⟩ : ∃ m, n = m + 4 := ⟨n-4, by omega⟩
  rw [backSub_split]
  have e1 : m + 4 - 1 = m + 3 := by omega
  have e2 : m + 4 - 2 = m + 2 := by omega
  have e3 : m + 4 - 3 = m + 1 := by omega
  have e4 : m + 4 - 4 = m := by omega
  have f1 : m + 3 - 1 = m + 2 := by omega
  have f2 : m + 3 - 2 = m + 1 := by omega
  have f3 : m + 3 - 3 = m := by omega
  have hs : forN (fun k u => Function.update u (m+4-1-k)
      (backRow (m+4) d e f (fun _ => 0) (fun _ => 0) (m+4-1-k) u)) y 4 =
     (let u := y
      let u := Function.update u (m+3) (u (m+3) / d (m+3))
      let u := Function.update u (m+2) (u (m+2) / d (m+2))
      let u := Function.update u (m+1) ((u (m+1) - e (m+1+2) * u (m+3)) / d (m+1))
      Function.update u m ((u m - e (m+2) * u (m+2)) / d m)) := by
    simp only [forN, backRow, e1, Nat.sub_zero, f1, f2, f3]
    ifs
    simp only [sub_zero, Nat.add_assoc, Nat.reduceAdd]
  rw [hs]
  simp only [e1, e2, e3, e4]
  apply forN_congr
  intro k hk t
  unfold backRow
  ifs
  simp

def b8_0 (n : ℕ) (d e f g : ℕ → K) (u : ℕ → K) : ℕ → K :=
  let _ := e; let _ := f; let _ := g
  Function.update u (n-1) (u (n-1) / d (n-1))

theorem b8_0_eq (m : ℕ) (d e f g h u : ℕ → K) :
    Function.update u (m+8-1-0) (backRow (m+8) d e f g h (m+8-1-0) u) = b8_0 (m+8) d e f g u := by
  have e1 : m + 8 - 1 = m + 7 := by omega
  have e2 : m + 8 - 2 = m + 6 := by omega
  have e3 : m + 8 - 3 = m + 5 := by omega
  have e4 : m + 8 - 4 = m + 4 := by omega
  have e5 : m + 8 - 5 = m + 3 := by omega
  have e6 : m + 8 - 6 = m + 2 := by omega
  have e7 : m + 8 - 7 = m + 1 := by omega
  have e8 : m + 8 - 8 = m := by omega
  have f1 : m + 7 - 0 = m + 7 := by omega
  simp only [b8_0, backRow, e1, e2, e3, e4, e5, e6, e7, e8, Nat.sub_zero, f1, Nat.add_zero]
  ifs
  try simp only [sub_zero, Nat.add_assoc, Nat.reduceAdd]

def b8_1 (n : ℕ) (d e f g : ℕ → K) (u : ℕ → K) : ℕ → K :=
  let _ := e; let _ := f; let _ := g
  Function.update u (n-2) (u (n-2) / d (n-2))

theorem b8_1_eq (m : ℕ) (d e f g h u : ℕ → K) :
    Function.update u (m+8-1-1) (backRow (m+8) d e f g h (m+8-1-1) u) = b8_1 (m+8) d e f g u := by
  have e1 : m + 8 - 1 = m + 7 := by omega
  have e2 : m + 8 - 2 = m + 6 := by omega
  have e3 : m + 8 - 3 = m + 5 := by omega
  have e4 : m + 8 - 4 = m + 4 := by omega
  have e5 : m + 8 - 5 = m + 3 := by omega
  have e6 : m + 8 - 6 = m + 2 := by omega
  have e7 : m + 8 - 7 = m + 1 := by omega
  have e8 : m + 8 - 8 = m := by omega
  have f1 : m + 7 - 1 = m + 6 := by omega
  simp only [b8_1, backRow, e1, e2, e3, e4, e5, e6, e7, e8, Nat.sub_zero, f1, Nat.add_zero]
  ifs
  try simp only [sub_zero, Nat.add_assoc, Nat.reduceAdd]

def b8_2 (n : ℕ) (d e f g : ℕ → K) (u : ℕ → K) : ℕ → K :=
  let _ := e; let _ := f; let _ := g
  Function.update u (n-3) ((u (n-3) - e (n-3+2) * u (n-1)) / d (n-3))

theorem b8_2_eq (m : ℕ) (d e f g h u : ℕ → K) :
    Function.update u (m+8-1-2) (backRow (m+8) d e f g h (m+8-1-2) u) = b8_2 (m+8) d e f g u := by
  have e1 : m + 8 - 1 = m + 7 := by omega
  have e2 : m + 8 - 2 = m + 6 := by omega
  have e3 : m + 8 - 3 = m + 5 := by omega
  have e4 : m + 8 - 4 = m + 4 := by omega
  have e5 : m + 8 - 5 = m + 3 := by omega
  have e6 : m + 8 - 6 = m + 2 := by omega
  have e7 : m + 8 - 7 = m + 1 := by omega
  have e8 : m + 8 - 8 = m := by omega
  have f1 : m + 7 - 2 = m + 5 := by omega
  simp only [b8_2, backRow, e1, e2, e3, e4, e5, e6, e7, e8, Nat.sub_zero, f1, Nat.add_zero]
  ifs
  try simp only [sub_zero, Nat.add_assoc, Nat.reduceAdd]

def b8_3 (n : ℕ) (d e f g : ℕ → K) (u : ℕ → K) : ℕ → K :=
  let _ := e; let _ := f; let _ := g
  Function.update u (n-4) ((u (n-4) - e (n-4+2) * u (n-2)) / d (n-4))

theorem b8_3_eq (m : ℕ) (d e f g h u : ℕ → K) :
    Function.update u (m+8-1-3) (backRow (m+8) d e f g h (m+8-1-3) u) = b8_3 (m+8) d e f g u := by
  have e1 : m + 8 - 1 = m + 7 := by omega
  have e2 : m + 8 - 2 = m + 6 := by omega
  have e3 : m + 8 - 3 = m + 5 := by omega
  have e4 : m + 8 - 4 = m + 4 := by omega
  have e5 : m + 8 - 5 = m + 3 := by omega
  have e6 : m + 8 - 6 = m + 2 := by omega
  have e7 : m + 8 - 7 = m + 1 := by omega
  have e8 : m + 8 - 8 = m := by omega
  have f1 : m + 7 - 3 = m + 4 := by omega
  simp only [b8_3, backRow, e1, e2, e3, e4, e5, e6, e7, e8, Nat.sub_zero, f1, Nat.add_zero]
  ifs
  try simp only [sub_zero, Nat.add_assoc, Nat.reduceAdd]

def b8_4 (n : ℕ) (d e f g : ℕ → K) (u : ℕ → K) : ℕ → K :=
  let _ := e; let _ := f; let _ := g
  Function.update u (n-5) ((u (n-5) - e (n-5+2) * u (n-3) - f (n-5+4) * u (n-1)) / d (n-5))

theorem b8_4_eq (m : ℕ) (d e f g h u : ℕ → K) :
    Function.update u (m+8-1-4) (backRow (m+8) d e f g h (m+8-1-4) u) = b8_4 (m+8) d e f g u := by
  have e1 : m + 8 - 1 = m + 7 := by omega
  have e2 : m + 8 - 2 = m + 6 := by omega
  have e3 : m + 8 - 3 = m + 5 := by omega
  have e4 : m + 8 - 4 = m + 4 := by omega
  have e5 : m + 8 - 5 = m + 3 := by omega
  have e6 : m + 8 - 6 = m + 2 := by omega
  have e7 : m + 8 - 7 = m + 1 := by omega
  have e8 : m + 8 - 8 = m := by omega
  have f1 : m + 7 - 4 = m + 3 := by omega
  simp only [b8_4, backRow, e1, e2, e3, e4, e5, e6, e7, e8, Nat.sub_zero, f1, Nat.add_zero]
  ifs
  try simp only [sub_zero, Nat.add_assoc, Nat.reduceAdd]

def b8_5 (n : ℕ) (d e f g : ℕ → K) (u : ℕ → K) : ℕ → K :=
  let _ := e; let _ := f; let _ := g
  Function.update u (n-6) ((u (n-6) - e (n-6+2) * u (n-4) - f (n-6+4) * u (n-2)) / d (n-6))

theorem b8_5_eq (m : ℕ) (d e f g h u : ℕ → K) :
    Function.update u (m+8-1-5) (backRow (m+8) d e f g h (m+8-1-5) u) = b8_5 (m+8) d e f g u := by
  have e1 : m + 8 - 1 = m + 7 := by omega
  have e2 : m + 8 - 2 = m + 6 := by omega
  have e3 : m + 8 - 3 = m + 5 := by omega
  have e4 : m + 8 - 4 = m + 4 := by omega
  have e5 : m + 8 - 5 = m + 3 := by omega
  have e6 : m + 8 - 6 = m + 2 := by omega
  have e7 : m + 8 - 7 = m + 1 := by omega
  have e8 : m + 8 - 8 = m := by omega
  have f1 : m + 7 - 5 = m + 2 := by omega
  simp only [b8_5, backRow, e1, e2, e3, e4, e5, e6, e7, e8, Nat.sub_zero, f1, Nat.add_zero]
  ifs
  try simp only [sub_zero, Nat.add_assoc, Nat.reduceAdd]

def b8_6 (n : ℕ) (d e f g : ℕ → K) (u : ℕ → K) : ℕ → K :=
  let _ := e; let _ := f; let _ := g
  Function.update u (n-7) ((u (n-7) - e (n-7+2) * u (n-5) - f (n-7+4) * u (n-3) - g (n-7+6) * u (n-1)) / d (n-7))

theorem b8_6_eq (m : ℕ) (d e f g h u : ℕ → K) :
    Function.update u (m+8-1-6) (backRow (m+8) d e f g h (m+8-1-6) u) = b8_6 (m+8) d e f g u := by
  have e1 : m + 8 - 1 = m + 7 := by omega
  have e2 : m + 8 - 2 = m + 6 := by omega
  have e3 : m + 8 - 3 = m + 5 := by omega
  have e4 : m + 8 - 4 = m + 4 := by omega
  have e5 : m + 8 - 5 = m + 3 := by omega
  have e6 : m + 8 - 6 = m + 2 := by omega
  have e7 : m + 8 - 7 = m + 1 := by omega
  have e8 : m + 8 - 8 = m := by omega
  have f1 : m + 7 - 6 = m + 1 := by omega
  simp only [b8_6, backRow, e1, e2, e3, e4, e5, e6, e7, e8, Nat.sub_zero, f1, Nat.add_zero]
  ifs
  try simp only [sub_zero, Nat.add_assoc, Nat.reduceAdd]

def b8_7 (n : ℕ) (d e f g : ℕ → K) (u : ℕ → K) : ℕ → K :=
  let _ := e; let _ := f; let _ := g
  Function.update u (n-8) ((u (n-8) - e (n-8+2) * u (n-6) - f (n-8+4) * u (n-4) - g (n-8+6) * u (n-2)) / d (n-8))

theorem b8_7_eq (m : ℕ) (d e f g h u : ℕ → K) :
    Function.update u (m+8-1-7) (backRow (m+8) d e f g h (m+8-1-7) u) = b8_7 (m+8) d e f g u := by
  have e1 : m + 8 - 1 = m + 7 := by omega
  have e2 : m + 8 - 2 = m + 6 := by omega
  have e3 : m + 8 - 3 = m + 5 := by omega
  have e4 : m + 8 - 4 = m + 4 := by omega
  have e5 : m + 8 - 5 = m + 3 := by omega
  have e6 : m + 8 - 6 = m + 2 := by omega
  have e7 : m + 8 - 7 = m + 1 := by omega
  have e8 : m + 8 - 8 = m := by omega
  have f1 : m + 7 - 7 = m + 0 := by omega
  simp only [b8_7, backRow, e1, e2, e3, e4, e5, e6, e7, e8, Nat.sub_zero, f1, Nat.add_zero]
  ifs
  try simp only [sub_zero, Nat.add_assoc, Nat.reduceAdd]

theorem back8 (n : ℕ) (hn : 8 ≤ n) (d e f g h : ℕ → K) (y : ℕ → K) :
    forN (fun q u => let k := n-8-1-q
       Function.update u k ((u k - e (k+2) * u (k+2) - f (k+4) * u (k+4)
         - g (k+6) * u (k+6) - h (k+8) * u (k+8)) / d k))
      (b8_7 n d e f g (b8_6 n d e f g (b8_5 n d e f g (b8_4 n d e f g (b8_3 n d e f g (b8_2 n d e f g (b8_1 n d e f g (b8_0 n d e f g y)))))))) (n-8)
    = backSub n d e f g h y := by
  obtain ⟨m, rfl⟩ : ∃ m, n = m + 8 := ⟨n-8, by omega⟩
  rw [backSub_split]
  set F : ℕ → (ℕ → K) → ℕ → K := fun k u => Function.update u (m+8-1-k) (backRow (m+8) d e f g h (m+8-1-k) u) with hF
  have hs : forN F y 8 = (F 7 (F 6 (F 5 (F 4 (F 3 (F 2 (F 1 (F 0 y)))))))) := rfl
  have h0 : ∀ u, F 0 u = b8_0 (m+8) d e f g u := b8_0_eq m d e f g h
  have h1 : ∀ u, F 1 u = b8_1 (m+8) d e f g u := b8_1_eq m d e f g h
  have h2 : ∀ u, F 2 u = b8_2 (m+8) d e f g u := b8_2_eq m d e f g h
  have h3 : ∀ u, F 3 u = b8_3 (m+8) d e f g u := b8_3_eq m d e f g h
  have h4 : ∀ u, F 4 u = b8_4 (m+8) d e f g u := b8_4_eq m d e f g h
  have h5 : ∀ u, F 5 u = b8_5 (m+8) d e f g u := b8_5_eq m d e f g h
  have h6 : ∀ u, F 6 u = b8_6 (m+8) d e f g u := b8_6_eq m d e f g h
  have h7 : ∀ u, F 7 u = b8_7 (m+8) d e f g u := b8_7_eq m d e f g h
  rw [hs, h0, h1, h2, h3, h4, h5, h6, h7]
  have e8 : m + 8 - 8 = m := by omega
  rw [e8]
  apply forN_congr
  intro k hk t
  unfold backRow
  ifs

theorem fwd2 (n : ℕ) (l1 : ℕ → K) (b : ℕ → K) :
    forN (fun k u => Function.update u (2+k) (u (2+k) - l1 (2+k-2) * u (2+k-2))) b (n-2)
      = fwdSub n l1 (fun _ => 0) b := by
  unfold fwdSub
  apply forN_congr
  intro k hk t
  unfold fwdRow
  ifs
  simp

theorem PDMA.innerSolve_eq (n : ℕ) (hn : 4 ≤ n) (D : Dia K) (b : ℕ → K) :
    PDMA.innerSolve n D b =
      backSub n (D 2) (D 3) (D 4) (fun _ => 0) (fun _ => 0) (fwdSub n (D 1) (D 0) b) := by
  rw [← back4 n hn, ← fwd_pre n hn]; rfl

theorem HeptaDMA.innerSolve_eq (n : ℕ) (hn : 8 ≤ n) (D : Dia K) (b : ℕ → K) :
    HeptaDMA.innerSolve n D b =
      backSub n (D 2) (D 3) (D 4) (D 5) (D 6) (fwdSub n (D 1) (D 0) b) := by
  rw [← back8 n hn, ← fwd_pre n (by omega)]; rfl

theorem FDMA.innerSolve_eq (n : ℕ) (hn : 4 ≤ n) (D : Dia K) (b : ℕ → K) :
    FDMA.innerSolve n D b =
      backSub n (D 1) (D 2) (D 3) (fun _ => 0) (fun _ => 0) (fwdSub n (D 0) (fun _ => 0) b) := by
  rw [← back4 n hn, ← fwd2 n]; rfl

theorem ThreeDMA.innerSolveRow_eq (r : ℕ) (n : ℕ) (hn : 4 ≤ n) (D : Dia K) (b : ℕ → K) :
    ThreeDMA.innerSolveRow r n D b =
      backSub n (D 0) (D 1) (D r) (fun _ => 0) (fun _ => 0) b := by
  rw [← back4 n hn]; rfl

theorem TwoDMA.innerSolve_eq (n : ℕ) (hn : 2 ≤ n) (D : Dia K) (b : ℕ → K) :
    TwoDMA.innerSolve n D b =
      backSub n (D 0) (D 1) (fun _ => 0) (fun _ => 0) (fun _ => 0) b := by
  have hpy1 : pyIdx n ((n:ℤ)-1) = n-1 := by exact_mod_cast pyIdx_nonneg n 1 (by omega)
  have hpy2 : pyIdx n ((n:ℤ)-2) = n-2 := by exact_mod_cast pyIdx_nonneg n 2 (by omega)
  rw [← back2 n hn]
  unfold TwoDMA.innerSolve
  rw [hpy1, hpy2]

theorem TDMA.innerSolve_eq (n : ℕ) (hn : 2 ≤ n) (D : Dia K) (b : ℕ → K) :
    TDMA.innerSolve n D b =
      backSub n (D 1) (D 2) (fun _ => 0) (fun _ => 0) (fun _ => 0) (fwdSub n (D 0) (fun _ => 0) b) := by
  have hpy1 : pyIdx n ((n:ℤ)-1) = n-1 := by exact_mod_cast pyIdx_nonneg n 1 (by omega)
  have hpy2 : pyIdx n ((n:ℤ)-2) = n-2 := by exact_mod_cast pyIdx_nonneg n 2 (by omega)
  rw [← back2 n hn, ← fwd2 n]
  unfold TDMA.innerSolve
  rw [hpy1, hpy2]

end Shenfun
