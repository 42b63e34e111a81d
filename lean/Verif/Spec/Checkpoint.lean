import Verif.Model.Checkpoint

/-!
# What a checkpoint should be
-/

namespace Shenfun.Spec

open Shenfun.Ckpt

variable {κ ι V T R : Type*}

/-- `tr` is an interleaving of the programs of the processes. -/
inductive Schedule [DecidableEq R] {α : Type*} : (R → List α) → List α → Prop
  | done (P : R → List α) (h : ∀ r, P r = []) : Schedule P []
  | step (P : R → List α) (r : R) (a : α) (l tr : List α) (h : P r = a :: l)
      (rest : Schedule (Function.update P r l) tr) : Schedule P (a :: tr)

/-- The local slices of the processes divide the global array: every index belongs to exactly one process. -/
structure SlicePartition (slice : R → List ι) : Prop where
  covers : ∀ i, ∃ r, i ∈ slice r
  disjoint : ∀ r r' i, i ∈ slice r → i ∈ slice r' → r = r'

/-- The checkpoint that should be on the disk after a call at `(t, tstep)` with arrays `arr`, if `prev` was there
before: all arrays of the dictionary, and the two attributes. -/
def snapshot [DecidableEq κ] (keys : List κ) (arr : κ → ι → V) (tstep : ℕ) (t : T) (prev : H5 κ ι V T) : H5 κ ι V T :=
  { data := fun k i => if k ∈ keys then some (arr k i) else prev.data k i, tstep := tstep, t := t, closed := true }

/-- The checkpoint `s` is on the disk, whole, in one of the two files. -/
def Recoverable (d : Disk κ ι V T) (s : H5 κ ι V T) : Prop := s.closed = true ∧ (d.chk = some s ∨ d.old = some s)

end Shenfun.Spec
