import Verif.Model.SolverObj
import Verif.Props.Solvers

/-!
# C09, C10: histories of calls on one banded solver object
-/

namespace Shenfun

variable {K : Type*} [Field K]

/-- Smallest size for which the class's loops make sense (and do not index out of range). -/
def Kind.minSize : Kind → ℕ
  | .diag => 0 | .tdmaO => 1 | .tdma => 2 | .two => 2 | .pdma => 4 | .fdma => 4 | .three => 4 | .hepta => 8

/-- C01–C08 (without C06) in one statement. -/
theorem Kind.solves (k : Kind) (hk : k ≠ .three) (n : ℕ) (hn : k.minSize ≤ n) (data : Dia K)
    (he : Spec.Eliminable n (Spec.diaEntry k.offs data)) (b : ℕ → K) :
    Spec.IsTheSolution n (Spec.diaEntry k.offs data) b (k.sweep n (k.factor n data) b) := by
  cases k with
  | diag => exact C08_diagMA_solves n data ((eliminable_upper_iff (DiagMA.entry_eq data)).1 he) b
  | tdma => exact C01_tdma_solves n hn data he b
  | tdmaO => exact C02_tdmaO_solves n hn data he b
  | pdma => exact C03_pdma_solves n hn data he b
  | fdma => exact C04_fdma_solves n hn data he b
  | two => exact C05_twoDMA_solves n hn data ((eliminable_upper_iff (TwoDMA.entry_eq data)).1 he) b
  | three => exact absurd rfl hk
  | hepta => exact C07_heptaDMA_solves n hn data he b

/-- The object is ready for unconstrained solves with the factors of `data`. -/
def BandedObj.Ready (k : Kind) (n : ℕ) (data : Dia K) (s : BandedObj K) : Prop :=
  s.n = n ∧ s.luRuns ≤ 1 ∧
    ((s.innerSet = true ∧ s.lu = k.factor n data) ∨
     (s.innerSet = false ∧ s.lu = data ∧ s.luRuns = 0 ∧ k.preset = false))

theorem BandedObj.ready_new (k : Kind) (n : ℕ) (data : Dia K) :
    (BandedObj.new k n data).Ready k n data := by
  refine ⟨rfl, Nat.zero_le 1, ?_⟩
  cases k <;> first
    | exact Or.inl ⟨rfl, rfl⟩
    | exact Or.inr ⟨rfl, rfl, rfl, rfl⟩

theorem BandedObj.ready_performLu {k : Kind} {n : ℕ} {data : Dia K} {s : BandedObj K}
    (h : s.Ready k n data) : (s.performLu k).Ready k n data ∧ (s.performLu k).lu = k.factor n data := by
  obtain ⟨h1, h2, h3⟩ := h
  unfold BandedObj.performLu
  rcases h3 with ⟨a, b⟩ | ⟨a, b, c, d⟩
  · by_cases hp : k.preset = true
    · rw [if_pos hp]; exact ⟨⟨h1, h2, Or.inl ⟨a, b⟩⟩, b⟩
    · rw [if_neg hp, if_pos a]; exact ⟨⟨h1, h2, Or.inl ⟨a, b⟩⟩, b⟩
  · rw [if_neg (by simp [d]), if_neg (by simp [a])]
    refine ⟨⟨h1, by simp [c], Or.inl ⟨rfl, ?_⟩⟩, ?_⟩ <;> simp [h1, b]

theorem BandedObj.run_none {k : Kind} {n : ℕ} {data : Dia K} (bs : List (ℕ → K)) :
    ∀ s : BandedObj K, s.Ready k n data →
      (s.run k (bs.map fun b => (none, b))).2 = bs.map (k.sweep n (k.factor n data)) ∧
      (s.run k (bs.map fun b => (none, b))).1.luRuns ≤ 1 := by
  induction bs with
  | nil => exact fun s hs => ⟨rfl, hs.2.1⟩
  | cons b bs ih =>
    intro s hs
    obtain ⟨h1, h2⟩ := BandedObj.ready_performLu hs
    obtain ⟨i1, i2⟩ := ih _ h1
    refine ⟨?_, i2⟩
    simp only [List.map_cons, BandedObj.run, BandedObj.call, BandedObj.applyConstraints]
    rw [i1, h2, h1.1]

/-- C09.  Whatever sequence of right-hand sides is passed to one solver object, every call returns the
solution for the original matrix, and the factorisation runs at most once.  (`ThreeDMA` is C06.) -/
theorem C09_reuse (k : Kind) (hk : k ≠ .three) (n : ℕ) (hn : k.minSize ≤ n) (data : Dia K)
    (he : Spec.Eliminable n (Spec.diaEntry k.offs data)) (bs : List (ℕ → K)) :
    let r := (BandedObj.new k n data).run k (bs.map fun b => (none, b))
    List.Forall₂ (fun b x => Spec.IsTheSolution n (Spec.diaEntry k.offs data) b x) bs r.2 ∧
    r.1.luRuns ≤ 1 := by
  obtain ⟨h1, h2⟩ := BandedObj.run_none (k := k) (n := n) (data := data) bs _ (BandedObj.ready_new k n data)
  refine ⟨?_, h2⟩
  rw [h1]
  rw [List.forall₂_map_right_iff]
  exact List.forall₂_same.2 fun b _ => Kind.solves k hk n hn data he b

example : ∃ data : Dia ℚ, Spec.Eliminable 7 (Spec.diaEntry (Kind.offs .pdma) data) ∧ Kind.minSize .pdma ≤ 7 :=
  ⟨exPenta, by
    refine eliminable_of_witness (isLU_band 7 2 4 2 4 6 8 (fun _ => 1) (fun _ => 1) (fun _ => 1) (fun _ => 1)
      (fun _ => 1) (fun _ => 0) (fun _ => 0) (by omega) (by omega)) ?_ ?_ <;> decide +kernel, by decide⟩

/-! ## C10 -/

/-- `u` is what a user expects from `constraints=((0, val),)`: the first unknown is `val` and the other
equations hold. -/
def Spec.ConstrainedSolution (n : ℕ) (A : ℕ → ℕ → K) (val : K) (b u : ℕ → K) : Prop :=
  u 0 = val ∧ ∀ i, 0 < i → i < n → Spec.mulVec n A u i = b i

/-- `A` with its first row replaced by that of the identity. -/
def Spec.fixRow0 (A : ℕ → ℕ → K) (i j : ℕ) : K := if i = 0 then (if j = 0 then 1 else 0) else A i j

theorem Spec.solves_fixRow0_iff {n : ℕ} (hn : 0 < n) {A : ℕ → ℕ → K} {val : K} {b u : ℕ → K} :
    Spec.Solves n (Spec.fixRow0 A) u (Function.update b 0 val) ↔ Spec.ConstrainedSolution n A val b u := by
  have h0 : Spec.mulVec n (Spec.fixRow0 A) u 0 = u 0 := by
    unfold Spec.mulVec Spec.fixRow0
    rw [Finset.sum_eq_single 0]
    · simp
    · intro j _ hj; simp [hj]
    · intro h; exact absurd (Finset.mem_range.2 hn) h
  have hpos : ∀ i, 0 < i → Spec.mulVec n (Spec.fixRow0 A) u i = Spec.mulVec n A u i := by
    intro i hi
    unfold Spec.mulVec Spec.fixRow0
    refine Finset.sum_congr rfl fun j _ => ?_
    rw [if_neg (by omega)]
  constructor
  · intro h
    refine ⟨?_, fun i hi hin => ?_⟩
    · rw [← h0, h 0 hn, Function.update_self]
    · rw [← hpos i hi, h i hin, Function.update_of_ne (by omega)]
  · rintro ⟨h1, h2⟩ i hi
    by_cases hi0 : i = 0
    · subst hi0; rw [h0, h1, Function.update_self]
    · rw [hpos i (by omega), h2 i (by omega) hi, Function.update_of_ne hi0]

def Kind.fix (k : Kind) (D : Dia K) : Dia K := k.fixes.foldl (fun D w => D.set w.1 w.2.1 w.2.2) D

/-- Classes whose constraint handling is sound on a fresh object. -/
def Kind.fixable : Kind → Bool
  | .diag | .tdma | .fdma | .two => true
  | _ => false

/-- Smallest size for which the writes of the constraint do not raise IndexError. -/
def Kind.minFixSize : Kind → ℕ
  | .diag => 1 | .tdmaO => 1 | .tdma => 3 | .two => 3 | .pdma => 5 | .fdma => 5 | .three => 5 | .hepta => 9

theorem Kind.entry_fix (k : Kind) (hk : k.fixable = true) (data : Dia K) (i j : ℕ) :
    Spec.diaEntry k.offs (k.fix data) i j = Spec.fixRow0 (Spec.diaEntry k.offs data) i j := by
  unfold Spec.fixRow0
  cases k with
  | diag =>
    simp only [Kind.offs, DiagMA.entry_eq, Kind.fix, Kind.fixes, List.foldl, bandU, Dia.set_apply]
    by_cases h : i = 0 <;> by_cases h' : j = 0 <;> simp [h, h'] <;> grind
  | tdma =>
    simp only [Kind.offs, TDMA.entry_eq, Kind.fix, Kind.fixes, List.foldl, Dia.set_apply]
    by_cases h : i = 0 <;> by_cases h' : j = 0 <;> simp [h, h'] <;> grind
  | fdma =>
    simp only [Kind.offs, FDMA.entry_eq, Kind.fix, Kind.fixes, List.foldl, Dia.set_apply]
    by_cases h : i = 0 <;> by_cases h' : j = 0 <;> simp [h, h'] <;> grind
  | two =>
    simp only [Kind.offs, TwoDMA.entry_eq, Kind.fix, Kind.fixes, List.foldl, bandU, Dia.set_apply]
    by_cases h : i = 0 <;> by_cases h' : j = 0 <;> simp [h, h'] <;> grind
  | _ => simp [Kind.fixable] at hk

theorem Dia.set_self (D : Dia K) (r c : ℕ) (v : K) (h : D r c = v) : D.set r c v = D := by
  funext r' c'
  rw [Dia.set_apply]
  split_ifs with hh
  · rw [hh.1, hh.2, h]
  · rfl

/-- Re-applying the constraint to already factorised constrained storage changes nothing. -/
theorem Kind.fix_factor (k : Kind) (hk : k.fixable = true) (n : ℕ) (data : Dia K) :
    k.fix (k.factor n (k.fix data)) = k.factor n (k.fix data) := by
  cases k with
  | diag =>
    simp only [Kind.fix, Kind.fixes, List.foldl, Kind.factor]
    rw [Dia.set_self]; simp [Dia.set_apply]
  | two =>
    simp only [Kind.fix, Kind.fixes, List.foldl, Kind.factor]
    rw [Dia.set_self _ 0 0, Dia.set_self] <;> simp [Dia.set_apply]
  | tdma =>
    obtain ⟨h0, h1, h2⟩ := TDMA.lu_inv n (Kind.fix .tdma data)
    simp only [Kind.factor]
    set D := TDMA.lu n (Kind.fix .tdma data)
    simp only [Kind.fix, Kind.fixes, List.foldl]
    have a : D 1 0 = 1 := by rw [h1, if_neg (by omega)]; simp [Kind.fix, Kind.fixes, Dia.set_apply]
    have b : D 2 2 = 0 := by rw [h2]; simp [Kind.fix, Kind.fixes, Dia.set_apply]
    rw [Dia.set_self D 1 0 1 a, Dia.set_self D 2 2 0 b]
  | fdma =>
    obtain ⟨h0, h1, h2, h3⟩ := FDMA.lu_inv n (Kind.fix .fdma data)
    simp only [Kind.factor]
    set D := FDMA.lu n (Kind.fix .fdma data)
    simp only [Kind.fix, Kind.fixes, List.foldl]
    have a : D 1 0 = 1 := by rw [h1, if_neg (by omega)]; simp [Kind.fix, Kind.fixes, Dia.set_apply]
    have b : D 2 2 = 0 := by rw [h2, if_neg (by omega)]; simp [Kind.fix, Kind.fixes, Dia.set_apply]
    have c : D 3 4 = 0 := by rw [h3]; simp [Kind.fix, Kind.fixes, Dia.set_apply]
    rw [Dia.set_self D 1 0 1 a, Dia.set_self D 2 2 0 b, Dia.set_self D 3 4 0 c]
  | _ => simp [Kind.fixable] at hk

/-- State reached after a first constrained call on a fresh object. -/
def BandedObj.Fixed (k : Kind) (n : ℕ) (data : Dia K) (s : BandedObj K) : Prop :=
  s.n = n ∧ s.innerSet = true ∧ s.lu = k.factor n (k.fix data)

/-- Right-hand side seen by the sweeps. -/
def rhsOf (con : Option K) (b : ℕ → K) : ℕ → K := con.elim b (Function.update b 0)

theorem BandedObj.fixed_call {k : Kind} (hk : k.fixable = true) {n : ℕ} {data : Dia K} {s : BandedObj K}
    (h : s.Fixed k n data) (con : Option K) (b : ℕ → K) :
    (s.call k con b).1.Fixed k n data ∧
      (s.call k con b).2 = k.sweep n (k.factor n (k.fix data)) (rhsOf con b) := by
  obtain ⟨h1, h2, h3⟩ := h
  have hl : ∀ t : BandedObj K, t.innerSet = true → t.performLu k = t := by
    intro t ht; unfold BandedObj.performLu; split_ifs <;> rfl
  cases con with
  | none =>
    unfold BandedObj.call BandedObj.applyConstraints
    simp only
    rw [hl s h2]
    exact ⟨⟨h1, h2, h3⟩, by rw [h1, h3]; rfl⟩
  | some val =>
    unfold BandedObj.call BandedObj.applyConstraints
    simp only
    rw [hl _ (by simp [h2])]
    have : List.foldl (fun D w => Dia.set D w.1 w.2.1 w.2.2) s.lu k.fixes = k.factor n (k.fix data) := by
      rw [h3]; exact Kind.fix_factor k hk n data
    refine ⟨⟨h1, by simp [h2], this⟩, ?_⟩
    simp only [this, h1]; rfl

theorem BandedObj.new_call_some {k : Kind} (hk : k.fixable = true) (n : ℕ) (data : Dia K) (val : K) (b : ℕ → K) :
    ((BandedObj.new k n data).call k (some val) b).1.Fixed k n data ∧
      ((BandedObj.new k n data).call k (some val) b).2 =
        k.sweep n (k.factor n (k.fix data)) (Function.update b 0 val) := by
  cases k <;> first
    | exact ⟨⟨rfl, rfl, rfl⟩, rfl⟩
    | simp [Kind.fixable] at hk

theorem BandedObj.run_fixed {k : Kind} (hk : k.fixable = true) {n : ℕ} {data : Dia K}
    (h : List (Option K × (ℕ → K))) : ∀ s : BandedObj K, s.Fixed k n data →
      (s.run k h).2 = h.map fun c => k.sweep n (k.factor n (k.fix data)) (rhsOf c.1 c.2) := by
  induction h with
  | nil => intros; rfl
  | cons c h ih =>
    intro s hs
    obtain ⟨a, b⟩ := BandedObj.fixed_call hk hs c.1 c.2
    simp only [BandedObj.run, List.map_cons]
    rw [ih _ a, b]

theorem Kind.fixable_ne {k : Kind} (hk : k.fixable = true) : k ≠ .three := by
  rintro rfl; simp [Kind.fixable] at hk

theorem Kind.minSize_le_fix (k : Kind) : k.minSize ≤ k.minFixSize := by cases k <;> decide

/-- What every call of a history that *starts* with a constrained call returns. -/
theorem C10_history_after_constraint (k : Kind) (hk : k.fixable = true) (n : ℕ) (hn : k.minFixSize ≤ n)
    (data : Dia K) (he : Spec.Eliminable n (Spec.fixRow0 (Spec.diaEntry k.offs data)))
    (val : K) (b : ℕ → K) (h : List (Option K × (ℕ → K))) :
    List.Forall₂ (fun c x => Spec.Solves n (Spec.fixRow0 (Spec.diaEntry k.offs data)) x (rhsOf c.1 c.2))
      ((some val, b) :: h) ((BandedObj.new k n data).run k ((some val, b) :: h)).2 := by
  have e : Spec.diaEntry k.offs (k.fix data) = Spec.fixRow0 (Spec.diaEntry k.offs data) := by
    funext i j; exact Kind.entry_fix k hk data i j
  have sol : ∀ b', Spec.Solves n (Spec.fixRow0 (Spec.diaEntry k.offs data))
      (k.sweep n (k.factor n (k.fix data)) b') b' := by
    intro b'
    have := (Kind.solves k (Kind.fixable_ne hk) n (le_trans k.minSize_le_fix hn) (k.fix data) (by rw [e]; exact he) b').1
    rwa [e] at this
  obtain ⟨h1, h2⟩ := BandedObj.new_call_some hk n data val b
  simp only [BandedObj.run]
  rw [BandedObj.run_fixed hk h _ h1, h2]
  refine List.Forall₂.cons (sol _) ?_
  rw [List.forall₂_map_right_iff]
  exact List.forall₂_same.2 fun c _ => sol _

/-- C10, partial.  On a fresh `DiagMA`, `TDMA`, `FDMA` or `TwoDMA` object, every call of an all-constrained
history returns the solution with first unknown `val` and the remaining equations of `A`.
Missing from the full claim: the other classes, and mixed histories — both are refuted below. -/
theorem C10_constraint_partial (k : Kind) (hk : k.fixable = true) (n : ℕ) (hn : k.minFixSize ≤ n)
    (data : Dia K) (he : Spec.Eliminable n (Spec.fixRow0 (Spec.diaEntry k.offs data)))
    (h : List (K × (ℕ → K))) :
    List.Forall₂ (fun c x => Spec.ConstrainedSolution n (Spec.diaEntry k.offs data) c.1 c.2 x) h
      ((BandedObj.new k n data).run k (h.map fun c => (some c.1, c.2))).2 := by
  have hn0 : 0 < n := lt_of_lt_of_le (by cases k <;> decide) hn
  cases h with
  | nil => exact List.Forall₂.nil
  | cons c h =>
    have := C10_history_after_constraint k hk n hn data he c.1 c.2 (h.map fun c => (some c.1, c.2))
    rw [show ((some c.1, c.2) :: h.map fun c => (some c.1, c.2)) = (c :: h).map fun c => (some c.1, c.2) from rfl]
      at this
    rw [List.forall₂_map_left_iff] at this
    exact this.imp fun c x hx => (Spec.solves_fixRow0_iff hn0).1 hx

/-- The constraint is sticky: after one constrained call, an unconstrained call still solves the
constrained matrix, so its first unknown is always the first entry of the right-hand side. -/
theorem C10_constraint_sticky (k : Kind) (hk : k.fixable = true) (n : ℕ) (hn : k.minFixSize ≤ n)
    (data : Dia K) (he : Spec.Eliminable n (Spec.fixRow0 (Spec.diaEntry k.offs data))) (val : K) (b b' : ℕ → K) :
    let s := ((BandedObj.new k n data).call k (some val) b).1
    Spec.ConstrainedSolution n (Spec.diaEntry k.offs data) (b' 0) b' (s.call k none b').2 := by
  have hn0 : 0 < n := lt_of_lt_of_le (by cases k <;> decide) hn
  have := C10_history_after_constraint k hk n hn data he val b [(none, b')]
  simp only [BandedObj.run, List.forall₂_cons] at this
  have h2 := this.2.1
  intro s
  rw [← Spec.solves_fixRow0_iff hn0, Function.update_eq_self]
  exact h2

example : ∃ data : Dia ℚ, Spec.Eliminable 5 (Spec.fixRow0 (Spec.diaEntry (Kind.offs .tdma) data)) ∧ data 1 0 = 5 :=
  ⟨fun r j => if r = 1 then (if j = 0 then 5 else if j < 3 then 1 else 2) else 1, by
    refine eliminable_of_witness (isLU_band 5 2 4 2 4 6 8 (fun _ => 1) (fun _ => 0) (fun _ => 1)
      (fun j => if j = 2 then 0 else 1) (fun _ => 0) (fun _ => 0) (fun _ => 0) (by omega) (by omega)) ?_ ?_
      <;> decide +kernel, by decide +kernel⟩

/-- `DiagMA` and `TwoDMA` have no factorisation, so for them a constrained call is right after *any*
history. -/
theorem C10_constraint_any_history_partial (k : Kind) (hk : k = .diag ∨ k = .two) (n : ℕ) (hn : k.minFixSize ≤ n)
    (data : Dia K) (he : Spec.Eliminable n (Spec.fixRow0 (Spec.diaEntry k.offs data)))
    (h : List (Option K × (ℕ → K))) (val : K) (b : ℕ → K) :
    let s := ((BandedObj.new k n data).run k h).1
    Spec.ConstrainedSolution n (Spec.diaEntry k.offs data) val b (s.call k (some val) b).2 := by
  have hf : k.fixable = true := by rcases hk with rfl | rfl <;> rfl
  have hp : k.preset = true := by rcases hk with rfl | rfl <;> rfl
  have hid : ∀ D : Dia K, k.factor n D = D := by rcases hk with rfl | rfl <;> exact fun _ => rfl
  have hn0 : 0 < n := lt_of_lt_of_le (by cases k <;> decide) hn
  have inv : ∀ (h : List (Option K × (ℕ → K))) (s : BandedObj K), s.n = n → (s.lu = data ∨ s.lu = k.fix data) →
      (s.run k h).1.n = n ∧ ((s.run k h).1.lu = data ∨ (s.run k h).1.lu = k.fix data) := by
    intro h
    induction h with
    | nil => exact fun s h1 h2 => ⟨h1, h2⟩
    | cons c h ih =>
      rintro s h1 h2
      simp only [BandedObj.run]
      apply ih
      · obtain ⟨c1, c2⟩ := c
        cases c1 <;> simp [BandedObj.call, BandedObj.applyConstraints, BandedObj.performLu, hp, h1]
      · obtain ⟨c1, c2⟩ := c
        cases c1 with
        | none => simpa [BandedObj.call, BandedObj.applyConstraints, BandedObj.performLu, hp] using h2
        | some v =>
          right
          have e : k.fix (k.fix data) = k.fix data := by
            have := Kind.fix_factor k hf n data
            rwa [hid] at this
          simp only [BandedObj.call, BandedObj.applyConstraints, BandedObj.performLu, hp, if_true]
          rcases h2 with h2 | h2
          · rw [h2]; rfl
          · rw [h2]; exact e
  obtain ⟨i1, i2⟩ := inv h (BandedObj.new k n data) rfl (Or.inl rfl)
  intro s
  have e : Spec.diaEntry k.offs (k.fix data) = Spec.fixRow0 (Spec.diaEntry k.offs data) := by
    funext i j; exact Kind.entry_fix k hf data i j
  have e2 : k.fix (k.fix data) = k.fix data := by
    have := Kind.fix_factor k hf n data
    rwa [hid] at this
  have hr : (s.call k (some val) b).2 = k.sweep n (k.factor n (k.fix data)) (Function.update b 0 val) := by
    simp only [BandedObj.call, BandedObj.applyConstraints, BandedObj.performLu, hp, if_true]
    have i2' : s.lu = data ∨ s.lu = k.fix data := i2
    have i1' : s.n = n := i1
    rw [hid, i1']
    rcases i2' with h2 | h2
    · rw [h2]; rfl
    · rw [h2]; congr 1
  rw [hr, ← Spec.solves_fixRow0_iff hn0, ← e]
  exact (Kind.solves k (Kind.fixable_ne hf) n (le_trans k.minSize_le_fix hn) (k.fix data) (by rw [e]; exact he) _).1

/-! ### Refutations of the full C10 -/

/-- Full C10 for one class: constrained calls are right after any history, and unconstrained calls too. -/
def C10Full (K : Type*) [Field K] (k : Kind) : Prop :=
  ∀ (n : ℕ) (data : Dia K) (h : List (Option K × (ℕ → K))) (con : Option K) (b : ℕ → K),
    k.minFixSize ≤ n →
    Spec.Eliminable n (Spec.diaEntry k.offs data) →
    Spec.Eliminable n (Spec.fixRow0 (Spec.diaEntry k.offs data)) →
    let u := (((BandedObj.new k n data).run k h).1.call k con b).2
    match con with
    | none => Spec.Solves n (Spec.diaEntry k.offs data) u b
    | some val => Spec.ConstrainedSolution n (Spec.diaEntry k.offs data) val b u

/-- Generic refutation: an unconstrained call after a constrained one. -/
theorem C10_sticky_refutes (k : Kind) (hk : k.fixable = true) (n : ℕ) (hn : k.minFixSize ≤ n) (data : Dia ℚ)
    (h1 : Spec.Eliminable n (Spec.diaEntry k.offs data))
    (h2 : Spec.Eliminable n (Spec.fixRow0 (Spec.diaEntry k.offs data)))
    (hne : ∃ b, (∀ u : ℕ → ℚ, Spec.Solves n (Spec.diaEntry k.offs data) u b → u 0 ≠ b 0)) : ¬ C10Full ℚ k := by
  intro hfull
  obtain ⟨b, hb⟩ := hne
  have := hfull n data [(some 0, b)] none b hn h1 h2
  exact hb _ this (C10_constraint_sticky k hk n hn data h2 0 b b).1

/-- A simple lower triangular matrix with diagonal 2 (and the given sub-diagonal storage rows equal to 1). -/
def exLow (k : Kind) : Dia ℚ := fun r _ =>
  if k.offs.getD r 0 = 0 then 2 else if k.offs.getD r 0 < 0 then 1 else 0

theorem exLow_eliminable (k : Kind) : Spec.Eliminable 9 (Spec.diaEntry k.offs (exLow k)) ∧
    Spec.Eliminable 9 (Spec.fixRow0 (Spec.diaEntry k.offs (exLow k))) := by
  have key : ∀ A : ℕ → ℕ → ℚ, (∀ i < 9, ∀ j < 9, i < j → A i j = 0) → (∀ i < 9, A i i ≠ 0) → Spec.Eliminable 9 A := by
    intro A h1 h2 m hm
    unfold Spec.leadMinor
    rw [Matrix.det_of_isLowerTriangular]
    · exact Finset.prod_ne_zero_iff.2 fun i _ => h2 i (by omega)
    · intro i j hij
      exact h1 i (by omega) j (by omega) hij
  constructor <;> apply key <;> cases k <;> decide +kernel

/-- `PDMA`, `HeptaDMA` (constraint suppresses the factorisation), `TDMA_O` (constraint never reaches the
matrix), `TDMA`, `FDMA`, `DiagMA`, `TwoDMA`, `ThreeDMA` (constraint is sticky): the full claim fails for
every class. -/
theorem C10_full_refuted (k : Kind) : ¬ C10Full ℚ k := by
  intro hfull
  obtain ⟨e1, e2⟩ := exLow_eliminable k
  have hn : k.minFixSize ≤ 9 := by cases k <;> decide
  -- sticky witness, first equation `2 u₀ = 1`
  have h1 := hfull 9 (exLow k) [(some 0, fun _ => 1)] none (fun _ => 1) hn e1 e2 0 (by omega)
  -- fresh constrained witness
  have h2 := hfull 9 (exLow k) [] (some 5) (fun _ => 1) hn e1 e2
  revert h1
  cases k with
  | tdmaO => exfalso; have h3 := h2.1; revert h3; decide +kernel
  | _ => decide +kernel

/-- The defects of `PDMA` and `HeptaDMA` show up on a fresh object already: a constrained first call
does not satisfy the remaining equations. -/
theorem C10_fresh_constraint_refuted (k : Kind) (hk : k = .pdma ∨ k = .hepta) :
    ∃ (val : ℚ) (b : ℕ → ℚ), ¬ Spec.ConstrainedSolution 9 (Spec.diaEntry k.offs (exLow k)) val b
      ((BandedObj.new k 9 (exLow k)).call k (some val) b).2 := by
  refine ⟨5, fun _ => 1, fun h => ?_⟩
  have h3 := h.2 4 (by omega) (by omega)
  revert h3
  rcases hk with rfl | rfl <;> decide +kernel

/-- `TDMA`, `FDMA`: a constrained call after an unconstrained one is wrong. -/
theorem C10_late_constraint_refuted (k : Kind) (hk : k = .tdma ∨ k = .fdma) :
    ∃ (val : ℚ) (b : ℕ → ℚ), ¬ Spec.ConstrainedSolution 9 (Spec.diaEntry k.offs (exLow k)) val b
      (((BandedObj.new k 9 (exLow k)).call k none b).1.call k (some val) b).2 := by
  refine ⟨5, fun _ => 1, fun h => ?_⟩
  have h3 := h.2 2 (by omega) (by omega)
  revert h3
  rcases hk with rfl | rfl <;> decide +kernel

end Shenfun
