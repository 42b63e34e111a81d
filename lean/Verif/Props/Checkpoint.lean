import Verif.Spec.Checkpoint
import Mathlib.Tactic.Common
import Mathlib.Tactic.NormNum
import Mathlib.Data.List.Induction
import Mathlib.Data.Rat.Defs
import Mathlib.Algebra.Order.Ring.Rat

/-!
# C77: checkpoints
-/

namespace Shenfun.Ckpt

set_option linter.unusedSectionVars false

open Spec

variable {κ ι V T R : Type*} [DecidableEq κ] [DecidableEq ι] [DecidableEq R]

/-! ## Schedules -/

/-- What one element sees of a list of writes. -/
def lastValue (k : κ) (i : ι) (d : Option V) (l : List (Write κ ι V)) : Option V :=
  l.foldl (fun acc w => if k = w.1 ∧ i = w.2.1 then some w.2.2 else acc) d

theorem lastValue_append (k : κ) (i : ι) (d : Option V) (l l' : List (Write κ ι V)) :
    lastValue k i d (l ++ l') = lastValue k i (lastValue k i d l) l' := by
  simp [lastValue]

theorem lastValue_none (k : κ) (i : ι) (d : Option V) (l : List (Write κ ι V)) (h : ∀ w ∈ l, ¬ (k = w.1 ∧ i = w.2.1)) :
    lastValue k i d l = d := by
  induction l generalizing d with
  | nil => rfl
  | cons w l ih =>
    have := h w (by simp)
    unfold lastValue
    rw [List.foldl_cons, if_neg this]
    exact ih d fun w' hw' => h w' (by simp [hw'])

/-- An element written by one process only does not see the schedule. -/
theorem schedule_lastValue (k : κ) (i : ι) (r : R) (P : R → List (Write κ ι V)) (tr : List (Write κ ι V))
    (hs : Schedule P tr) (h : ∀ r', r' ≠ r → ∀ w ∈ P r', ¬ (k = w.1 ∧ i = w.2.1)) (d : Option V) :
    lastValue k i d tr = lastValue k i d (P r) := by
  induction hs generalizing d with
  | done P h0 => rw [h0 r]
  | step P s a l tr hP _ ih =>
    by_cases hr : s = r
    · subst hr
      have := ih (fun r' hr' w hw => h r' hr' w (by rwa [Function.update_of_ne hr'] at hw))
        (if k = a.1 ∧ i = a.2.1 then some a.2.2 else d)
      rw [Function.update_self] at this
      rw [hP]
      exact this
    · have ha : ¬ (k = a.1 ∧ i = a.2.1) := h s hr a (by rw [hP]; simp)
      have := ih (fun r' hr' w hw => by
        by_cases hr2 : r' = s
        · subst hr2
          rw [Function.update_self] at hw
          exact h r' hr w (by rw [hP]; simp [hw])
        · rw [Function.update_of_ne hr2] at hw
          exact h r' hr' w hw) d
      rw [Function.update_of_ne (Ne.symm hr)] at this
      rw [← this]
      unfold lastValue
      rw [List.foldl_cons, if_neg ha]

theorem lastValue_slice (k : κ) (i : ι) (u : ι → V) (s : List ι) (hi : i ∈ s) (d : Option V) :
    lastValue k i d (s.map fun j => (k, j, u j)) = some (u i) := by
  induction s using List.reverseRecOn with
  | nil => simp at hi
  | append_singleton s j ih =>
    rw [List.map_append, lastValue_append]
    by_cases hj : i = j
    · subst hj; simp [lastValue]
    · rw [lastValue_none, ih (by simpa [hj] using hi)]
      simp [hj]

theorem lastValue_arrays (k : κ) (i : ι) (us : List (ι → V)) (hu : us ≠ []) (s : List ι) (hi : i ∈ s) (d : Option V) :
    lastValue k i d (us.flatMap fun u => s.map fun j => (k, j, u j)) = some (us.getLast hu i) := by
  induction us using List.reverseRecOn with
  | nil => exact absurd rfl hu
  | append_singleton us u _ =>
    rw [List.flatMap_append, lastValue_append, List.flatMap_singleton, lastValue_slice k i u s hi]
    simp

/-- The writes of the process that owns the element. -/
theorem lastValue_rank (data : List (κ × List (ι → V))) (hnd : (data.map Prod.fst).Nodup) (s : List ι) (i : ι)
    (hi : i ∈ s) (k : κ) (us : List (ι → V)) (hk : (k, us) ∈ data) (hu : us ≠ []) (d : Option V) :
    lastValue k i d (rankWrites data s) = some (us.getLast hu i) := by
  induction data generalizing d with
  | nil => simp at hk
  | cons e data ih =>
    obtain ⟨k', us'⟩ := e
    rw [List.map_cons, List.nodup_cons] at hnd
    unfold rankWrites
    rw [List.flatMap_cons, lastValue_append]
    rcases List.mem_cons.1 hk with h | h
    · obtain ⟨rfl, rfl⟩ := Prod.mk.injEq .. ▸ h
      rw [lastValue_none]
      · exact lastValue_arrays k i us hu s hi d
      · intro w hw hc
        obtain ⟨e, he, hw⟩ := List.mem_flatMap.1 hw
        obtain ⟨u, -, hw⟩ := List.mem_flatMap.1 hw
        obtain ⟨j, -, rfl⟩ := List.mem_map.1 hw
        exact hnd.1 (List.mem_map.2 ⟨e, he, hc.1.symm⟩)
    · exact ih hnd.2 h _

theorem mem_rankWrites (data : List (κ × List (ι → V))) (s : List ι) (w : Write κ ι V) (hw : w ∈ rankWrites data s) :
    w.1 ∈ data.map Prod.fst ∧ w.2.1 ∈ s := by
  obtain ⟨e, he, hw⟩ := List.mem_flatMap.1 hw
  obtain ⟨u, -, hw⟩ := List.mem_flatMap.1 hw
  obtain ⟨j, hj, rfl⟩ := List.mem_map.1 hw
  exact ⟨List.mem_map.2 ⟨e, he, rfl⟩, hj⟩

/-- A call made by all processes together: the dictionary has at least one array for every name, the slices divide
the arrays, and the writes happen in some order that respects the order on every process. -/
structure Call.Parallel (c : Call κ ι V T) (slice : R → List ι) : Prop where
  nodup : (c.data.map Prod.fst).Nodup
  nonempty : ∀ e ∈ c.data, e.2 ≠ []
  part : SlicePartition slice
  sched : Schedule (fun r => rankWrites c.data (slice r)) c.writes

open Classical in
/-- The array stored under a name: the last of its list. -/
noncomputable def Call.array (c : Call κ ι V T) [Inhabited V] (k : κ) : ι → V :=
  if h : ∃ us, (k, us) ∈ c.data ∧ us ≠ [] then h.choose.getLast h.choose_spec.2 else default

theorem nodup_fst_unique {α β : Type*} (l : List (α × β)) (h : (l.map Prod.fst).Nodup) (a : α) (b b' : β)
    (hb : (a, b) ∈ l) (hb' : (a, b') ∈ l) : b = b' := by
  induction l with
  | nil => simp at hb
  | cons e l ih =>
    rw [List.map_cons, List.nodup_cons] at h
    rcases List.mem_cons.1 hb with h1 | h1 <;> rcases List.mem_cons.1 hb' with h2 | h2
    · rw [← h2] at h1; exact (Prod.mk.injEq .. ▸ h1).2
    · exact absurd (List.mem_map.2 ⟨_, h2, by rw [← h1]⟩) h.1
    · exact absurd (List.mem_map.2 ⟨_, h1, by rw [← h2]⟩) h.1
    · exact ih h.2 h1 h2

theorem Call.array_eq [Inhabited V] (c : Call κ ι V T) (h : (c.data.map Prod.fst).Nodup) (k : κ) (us : List (ι → V))
    (hk : (k, us) ∈ c.data) (hu : us ≠ []) : c.array k = us.getLast hu := by
  have hex : ∃ us, (k, us) ∈ c.data ∧ us ≠ [] := ⟨us, hk, hu⟩
  unfold Call.array
  rw [dif_pos hex]
  have : hex.choose = us := nodup_fst_unique _ h k _ _ hex.choose_spec.1 hk
  simp only [this]

/-- The checkpoint a call should leave. -/
noncomputable def Call.snap [Inhabited V] (c : Call κ ι V T) (prev : H5 κ ι V T) : H5 κ ι V T :=
  snapshot (c.data.map Prod.fst) c.array c.tstep c.t prev

theorem H5.data_sets (h : H5 κ ι V T) (ws : List (Write κ ι V)) (k : κ) (i : ι) :
    (ws.foldl H5.set h).data k i = lastValue k i (h.data k i) ws := by
  induction ws generalizing h with
  | nil => rfl
  | cons w ws ih => rw [List.foldl_cons, ih]; rfl

theorem H5.sets_other (h : H5 κ ι V T) (ws : List (Write κ ι V)) :
    (ws.foldl H5.set h).tstep = h.tstep ∧ (ws.foldl H5.set h).t = h.t ∧ (ws.foldl H5.set h).closed = h.closed := by
  induction ws generalizing h with
  | nil => exact ⟨rfl, rfl, rfl⟩
  | cons w ws ih => rw [List.foldl_cons]; exact ih _

/-- **C77 (parallel write).** Whatever the order in which the processes write, every element of every array ends up in
the file, and nothing else changes. -/
theorem C77_parallel_write [Inhabited V] (c : Call κ ι V T) (slice : R → List ι) (hc : c.Parallel slice) (h : H5 κ ι V T)
    (k : κ) (i : ι) :
    (c.writes.foldl H5.set h).data k i
      = if k ∈ c.data.map Prod.fst then some (c.array k i) else h.data k i := by
  rw [H5.data_sets]
  obtain ⟨r, hr⟩ := hc.part.covers i
  rw [schedule_lastValue k i r _ _ hc.sched]
  · split_ifs with hk
    · obtain ⟨⟨k', us⟩, he, rfl⟩ := List.mem_map.1 hk
      rw [lastValue_rank c.data hc.nodup (slice r) i hr k' us he (hc.nonempty _ he),
        c.array_eq hc.nodup k' us he (hc.nonempty _ he)]
    · refine lastValue_none _ _ _ _ fun w hw hcon => hk ?_
      rw [hcon.1]
      exact (mem_rankWrites _ _ w hw).1
  · intro r' hr' w hw hcon
    have := (mem_rankWrites _ _ w hw).2
    rw [← hcon.2] at this
    exact hr' (hc.part.disjoint r' r i this hr)

/-! ## Crashes -/

theorem runOps_append (d : Disk κ ι V T) (l l' : List (Op κ ι V T)) : runOps d (l ++ l') = runOps (runOps d l) l' := by
  simp [runOps]

theorem runOps_writes (d : Disk κ ι V T) (h : H5 κ ι V T) (hd : d.chk = some h) (ws : List (Write κ ι V)) :
    runOps d (ws.map .write) = { d with chk := some (ws.foldl H5.set h) } := by
  induction ws generalizing d h with
  | nil => obtain ⟨c, o⟩ := d; cases hd; rfl
  | cons w ws ih =>
    have : runOps d ((w :: ws).map Op.write) = runOps (Op.run d (.write w)) (ws.map .write) := rfl
    rw [this, ih (Op.run d (.write w)) (h.set w) (by simp [Op.run, Disk.onChk, hd])]
    simp [Op.run, Disk.onChk]

/-- The steps of a call that writes leave the snapshot in the file and the previous checkpoint in the old one. -/
theorem run_call [Inhabited V] (t0 : T) (ce : ℕ) (c : Call κ ι V T) (slice : R → List ι) (hc : c.Parallel slice)
    (hw : c.writesFile ce = true) (d : Disk κ ι V T) (g : H5 κ ι V T) (hd : d.chk = some g) :
    runOps d (c.ops t0 ce false) = { chk := some (c.snap g), old := some g } := by
  obtain ⟨chk, old⟩ := d
  simp only at hd
  subst hd
  unfold Call.ops
  rw [hw]
  simp only [if_true, Bool.false_eq_true, if_false, List.nil_append]
  rw [List.append_assoc, runOps_append, runOps_append]
  have h1 : runOps ⟨some g, old⟩ [.cpBegin, .cpEnd, .openFile] = (⟨some { g with closed := false }, some g⟩ : Disk κ ι V T) := by
    simp [runOps, Op.run, Disk.onChk]
  rw [h1, runOps_writes _ _ rfl]
  simp only [runOps, List.foldl_cons, List.foldl_nil, Op.run, Disk.onChk, Option.map_some]
  congr 2
  unfold Call.snap snapshot
  congr 1
  funext k i
  exact C77_parallel_write c slice hc _ k i

/-- A call that does not write changes nothing. -/
theorem run_call_skip (t0 : T) (ce : ℕ) (c : Call κ ι V T) (hw : c.writesFile ce = false) :
    c.ops t0 ce false = [] := by
  simp [Call.ops, hw]

/-- The checkpoint after a history of calls that started from `g`. -/
noncomputable def snapAfter [Inhabited V] (ce : ℕ) (g : H5 κ ι V T) (hs : List (Call κ ι V T)) : H5 κ ι V T :=
  hs.foldl (fun g c => if c.writesFile ce then c.snap g else g) g

/-- Every prefix of the steps of a single call leaves the previous checkpoint whole in one of the files. -/
theorem prefix_call (t0 : T) (ce : ℕ) (c : Call κ ι V T)
    (hw : c.writesFile ce = true) (d : Disk κ ι V T) (g : H5 κ ι V T) (hg : g.closed = true) (hd : d.chk = some g)
    (q : List (Op κ ι V T)) (hq : q <+: c.ops t0 ce false) :
    Recoverable (runOps d q) g := by
  obtain ⟨chk, old⟩ := d
  simp only at hd
  subst hd
  have hfull : c.ops t0 ce false = .cpBegin :: .cpEnd :: (.openFile :: c.writes.map .write ++ [.setTstep c.tstep, .setT c.t, .closeFile]) := by
    simp [Call.ops, hw]
  refine ⟨hg, ?_⟩
  rw [hfull] at hq
  have hkeep : ∀ (l : List (Op κ ι V T)) (d : Disk κ ι V T), d.old = some g →
      (∀ o ∈ l, o ≠ .cpBegin ∧ o ≠ .cpEnd) → (runOps d l).old = some g := by
    intro l
    induction l with
    | nil => intro d hd _; exact hd
    | cons o l ih =>
      intro d hd h
      have : runOps d (o :: l) = runOps (Op.run d o) l := rfl
      rw [this]
      refine ih _ ?_ fun o' ho' => h o' (by simp [ho'])
      have ho := h o (by simp)
      cases o <;> first | exact absurd rfl ho.1 | exact absurd rfl ho.2 | exact hd
  match q, hq with
  | [], _ => left; rfl
  | [o], hq =>
    obtain ⟨ho, -⟩ := List.cons_prefix_cons.1 hq
    subst ho
    left; rfl
  | o :: o' :: q, hq =>
    obtain ⟨ho, hq⟩ := List.cons_prefix_cons.1 hq
    obtain ⟨ho', hq3⟩ := List.cons_prefix_cons.1 hq
    subst ho
    subst ho'
    right
    have : runOps ⟨some g, old⟩ (Op.cpBegin :: Op.cpEnd :: q) = runOps (⟨some g, some g⟩ : Disk κ ι V T) q := rfl
    rw [this]
    refine hkeep q _ rfl fun o ho => ?_
    have hmem := hq3.subset ho
    simp only [List.cons_append, List.mem_cons, List.mem_append, List.mem_map, List.not_mem_nil, or_false] at hmem
    rcases hmem with h | ⟨w, -, h⟩ | h | h | h <;> subst h <;> simp

theorem run_history [Inhabited V] (t0 : T) (ce : ℕ) (slice : R → List ι) (hs : List (Call κ ι V T))
    (hp : ∀ c ∈ hs, c.Parallel slice) (hk : ∀ c ∈ hs, c.kill = false) (d : Disk κ ι V T) (g : H5 κ ι V T)
    (hd : d.chk = some g) : (runOps d (historyOps t0 ce false hs)).chk = some (snapAfter ce g hs) := by
  induction hs generalizing d g with
  | nil => simpa [historyOps, runOps, snapAfter] using hd
  | cons c hs ih =>
    have ih := ih (fun c' hc' => hp c' (by simp [hc'])) fun c' hc' => hk c' (by simp [hc'])
    rw [historyOps, hk c (by simp), if_neg (by simp), runOps_append]
    have hsn : snapAfter ce g (c :: hs) = snapAfter ce (if c.writesFile ce then c.snap g else g) hs := rfl
    rw [hsn]
    by_cases hw : c.writesFile ce = true
    · rw [run_call t0 ce c slice (hp c (by simp)) hw d g hd, if_pos hw]
      exact ih _ _ rfl
    · rw [if_neg hw, run_call_skip t0 ce c (by simpa using hw)]
      exact ih _ _ hd

theorem historyOps_append (t0 : T) (ce : ℕ) (fresh : Bool) (hs hs' : List (Call κ ι V T)) (h : hs ≠ [])
    (hk : ∀ c ∈ hs, c.kill = false) :
    historyOps t0 ce fresh (hs ++ hs') = historyOps t0 ce fresh hs ++ historyOps t0 ce false hs' := by
  induction hs generalizing fresh with
  | nil => exact absurd rfl h
  | cons c hs ih =>
    rw [List.cons_append, historyOps, historyOps, hk c (by simp)]
    simp only [Bool.false_eq_true, if_false]
    by_cases hn : hs = []
    · subst hn; simp [historyOps]
    · rw [ih false hn fun c' hc' => hk c' (by simp [hc']), List.append_assoc]

theorem snapAfter_closed [Inhabited V] (ce : ℕ) (g : H5 κ ι V T) (hg : g.closed = true) (hs : List (Call κ ι V T)) :
    (snapAfter ce g hs).closed = true := by
  induction hs generalizing g with
  | nil => exact hg
  | cons c hs ih =>
    refine ih _ ?_
    by_cases hw : c.writesFile ce = true
    · simp only [hw, if_true]; rfl
    · simp only [hw]; exact hg

/-- **C77 (no crash loses the checkpoint).** An object that has already read (or written) the file makes any number of
calls; the machine stops after any step of any of them. Then one of the two files holds, whole, the checkpoint of the
calls that were finished. -/
theorem C77_crash [Inhabited V] (t0 : T) (ce : ℕ) (slice : R → List ι) (done : List (Call κ ι V T)) (c : Call κ ι V T)
    (hp : ∀ c' ∈ done, c'.Parallel slice) (hk : ∀ c' ∈ done, c'.kill = false) (d : Disk κ ι V T) (g : H5 κ ι V T)
    (hg : g.closed = true) (hd : d.chk = some g) (q : List (Op κ ι V T)) (hq : q <+: c.ops t0 ce false) :
    Recoverable (runOps d (historyOps t0 ce false done ++ q)) (snapAfter ce g done) := by
  have h0 := run_history t0 ce slice done hp hk d g hd
  have hcl := snapAfter_closed ce g hg done
  rw [runOps_append]
  by_cases hw : c.writesFile ce = true
  · exact prefix_call t0 ce c hw _ _ hcl h0 q hq
  · rw [run_call_skip t0 ce c (by simpa using hw), List.prefix_nil] at hq
    subst hq
    exact ⟨hcl, Or.inl h0⟩

/-- **C77 (restart).** After a history of calls that ended normally, `read` gives every process - however the arrays are
distributed in the new run - the elements of the last checkpoint; the file is closed and carries the time and step of
that call. -/
theorem C77_read [Inhabited V] (t0 : T) (ce : ℕ) (slice : R → List ι) (done : List (Call κ ι V T)) (c : Call κ ι V T)
    (hp : ∀ c' ∈ done ++ [c], c'.Parallel slice) (hk : ∀ c' ∈ done ++ [c], c'.kill = false)
    (hw : c.writesFile ce = true) (d : Disk κ ι V T) (g : H5 κ ι V T) (hd : d.chk = some g) (k : κ)
    (hmem : k ∈ c.data.map Prod.fst) (i : ι) :
    read (runOps d (historyOps t0 ce false (done ++ [c]))) k i = some (c.array k i) ∧
      ∃ h, (runOps d (historyOps t0 ce false (done ++ [c]))).chk = some h ∧ h.t = c.t ∧ h.tstep = c.tstep ∧
        h.closed = true := by
  rw [read, run_history t0 ce slice _ hp hk d g hd]
  have e : snapAfter ce g (done ++ [c]) = c.snap (snapAfter ce g done) := by
    simp [snapAfter, hw]
  rw [e, Option.bind_some]
  refine ⟨?_, _, rfl, rfl, rfl, rfl⟩
  unfold Call.snap snapshot
  exact if_pos hmem

/-- **C77 (kill).** All processes give the same answer, yes exactly when one of them saw the file; then the call writes
the checkpoint whatever the step is, and the program ends. -/
theorem C77_kill (ranks : List R) (found : R → Bool) (r r' : R) (t0 : T) (ce : ℕ) (c : Call κ ι V T) (fresh : Bool)
    (l : List (Call κ ι V T)) :
    checkIfKill ranks found r = checkIfKill ranks found r'
      ∧ (checkIfKill ranks found r = true ↔ ∃ s ∈ ranks, found s = true)
      ∧ (c.kill = true → c.writesFile ce = true ∧ historyOps t0 ce fresh (c :: l) = c.ops t0 ce fresh) := by
  refine ⟨rfl, ?_, ?_⟩
  · unfold checkIfKill
    rw [decide_eq_true_iff]
    induction ranks with
    | nil => simp
    | cons s l ih =>
      rw [List.map_cons, List.sum_cons, List.exists_mem_cons_iff, ← ih]
      by_cases h : found s = true
      · simp only [h, if_true, true_or, iff_true]; omega
      · simp [h]
  · intro h
    refine ⟨by simp [Call.writesFile, h], by simp [historyOps, h]⟩

/-! ## What does not hold -/

/-- **C77 (refuted: a new object truncates).** `update` on an object that has not read the file begins by emptying it,
whether or not it is time for a checkpoint: the data of the previous run are gone from the file, and when it is time for
a checkpoint the old file is overwritten with the empty one, so that a stop there leaves nothing in either. -/
theorem C77_fresh_loses (t0 : T) (ce : ℕ) (c : Call κ ι V T) (d : Disk κ ι V T) :
    (∃ q, q <+: c.ops t0 ce true ∧ ∃ h, (runOps d q).chk = some h ∧ ∀ k i, h.data k i = none) ∧
      (c.writesFile ce = true → ∃ q, q <+: c.ops t0 ce true ∧ ∃ h, (runOps d q).chk = some h ∧ (runOps d q).old = some h
        ∧ ∀ k i, h.data k i = none) := by
  constructor
  · refine ⟨[.truncate t0, .closeFile], ⟨_, rfl⟩, ⟨fun _ _ => none, 0, t0, true⟩, rfl, fun _ _ => rfl⟩
  · intro hw
    refine ⟨[.truncate t0, .closeFile, .cpBegin, .cpEnd], ?_, ⟨fun _ _ => none, 0, t0, true⟩, rfl, rfl, fun _ _ => rfl⟩
    unfold Call.ops
    rw [hw]
    simp

/-- **C77 (refuted: the attributes do not tell).** A stop after the last element and before the attributes leaves a file
with the new arrays under the time of the previous checkpoint. -/
theorem C77_torn [Inhabited V] (t0 : T) (ce : ℕ) (c : Call κ ι V T) (slice : R → List ι) (hc : c.Parallel slice)
    (hw : c.writesFile ce = true) (d : Disk κ ι V T) (g : H5 κ ι V T) (hd : d.chk = some g) :
    ∃ q, q <+: c.ops t0 ce false ∧ ∃ h, (runOps d q).chk = some h ∧ h.t = g.t ∧ h.tstep = g.tstep ∧
      ∀ k ∈ c.data.map Prod.fst, ∀ i, h.data k i = some (c.array k i) := by
  obtain ⟨chk, old⟩ := d
  simp only at hd
  subst hd
  refine ⟨[.cpBegin, .cpEnd, .openFile] ++ c.writes.map .write, ?_, ?_⟩
  · unfold Call.ops
    rw [hw]
    simp
  · rw [runOps_append]
    have h1 : runOps ⟨some g, old⟩ [.cpBegin, .cpEnd, .openFile] = (⟨some { g with closed := false }, some g⟩ : Disk κ ι V T) := by
      simp [runOps, Op.run, Disk.onChk]
    rw [h1, runOps_writes _ _ rfl]
    refine ⟨_, rfl, (H5.sets_other _ _).2.1, (H5.sets_other _ _).1, ?_⟩
    intro k hk i
    rw [C77_parallel_write c slice hc, if_pos hk]

/-- **C77 (refuted: two stops).** If the run continues from the file a stop left behind, without putting the old file
back, the next call copies that file over the old one: a second stop leaves the same unfinished file in both. -/
theorem C77_two_stops (t0 : T) (ce : ℕ) (c : Call κ ι V T) (hw : c.writesFile ce = true) (d : Disk κ ι V T)
    (torn : H5 κ ι V T) (hd : d.chk = some torn) :
    ∃ q, q <+: c.ops t0 ce false ∧ (runOps d q).chk = some torn ∧ (runOps d q).old = some torn := by
  obtain ⟨chk, old⟩ := d
  simp only at hd
  subst hd
  refine ⟨[.cpBegin, .cpEnd], ?_, rfl, rfl⟩
  unfold Call.ops
  rw [hw]
  simp

/-- **C77 (refuted: several arrays under a name).** Of a list of arrays only the last is stored. -/
theorem C77_last_of_list [Inhabited V] (c : Call κ ι V T) (slice : R → List ι) (hc : c.Parallel slice) (h : H5 κ ι V T)
    (k : κ) (us : List (ι → V)) (u : ι → V) (hk : (k, us ++ [u]) ∈ c.data) (i : ι) :
    (c.writes.foldl H5.set h).data k i = some (u i) := by
  rw [C77_parallel_write c slice hc, if_pos (List.mem_map.2 ⟨_, hk, rfl⟩), c.array_eq hc.nodup k _ hk (by simp)]
  simp

/-! ## The hypotheses are met -/

/-- Two processes, an array of four elements, interleaved writes. -/
def exCall : Call ℕ (Fin 4) ℚ ℚ :=
  { t := 1 / 2, tstep := 10, kill := false, data := [(0, [fun i => i + 1])],
    writes := [(0, 2, 3), (0, 0, 1), (0, 1, 2), (0, 3, 4)] }

/-- The slices of the two processes. -/
def exSlice : Bool → List (Fin 4) := fun r => if r then [2, 3] else [0, 1]

theorem exCall_parallel : exCall.Parallel exSlice := by
  refine ⟨by simp [exCall], by simp [exCall], ⟨?_, ?_⟩, ?_⟩
  · decide
  · decide
  · refine .step _ true _ [(0, 3, 4)] _ ?_ (.step _ false _ [(0, 1, 2)] _ ?_ (.step _ false _ [] _ ?_ (.step _ true _ [] _ ?_ (.done _ ?_))))
    · simp only [rankWrites, exSlice]; decide +kernel
    · simp only [rankWrites, exSlice]; decide +kernel
    · simp
    · simp
    · intro r; cases r <;> simp

example (q : List (Op ℕ (Fin 4) ℚ ℚ)) (hq : q <+: exCall.ops 0 10 false) (g : H5 ℕ (Fin 4) ℚ ℚ) (hg : g.closed = true) :
    Recoverable (runOps ⟨some g, none⟩ (historyOps 0 10 false [exCall] ++ q)) (snapAfter 10 g [exCall]) :=
  C77_crash 0 10 exSlice [exCall] exCall (by simp [exCall_parallel]) (by simp [exCall]) _ g hg rfl q hq

end Shenfun.Ckpt
