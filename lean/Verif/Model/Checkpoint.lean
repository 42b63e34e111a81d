import Mathlib.Logic.Function.Basic
import Mathlib.Data.List.Basic

/-!
# `Checkpoint`, `/repo/shenfun/io/__init__.py:43-124`

The disk holds at most the two files `<name>.chk.h5` and `<name>.old.chk.h5`. Every call is broken down into the
smallest steps after which the machine can stop: the two ends of `cp`, opening, the write of a single element, the
write of an attribute, closing. `ι` are the indices of a global array, `κ` the data sets (name and step).

Simplifications: opening a file is taken to be collective in the sense that no process writes before every process
(and so the `cp` of process 0) has reached it; an HDF5 file that was open for writing when the machine stopped is
described by `closed = false`; shapes and dtypes of data sets are not modelled.
-/

namespace Shenfun.Ckpt

variable {κ ι V T : Type*}

/-- The content of a checkpoint file: the data sets, the attributes `tstep` and `t`, and whether it was closed. -/
structure H5 (κ ι V T : Type*) where
  data : κ → ι → Option V
  tstep : ℕ
  t : T
  closed : Bool

/-- The disk: `<name>.chk.h5` and `<name>.old.chk.h5`. -/
structure Disk (κ ι V T : Type*) where
  chk : Option (H5 κ ι V T)
  old : Option (H5 κ ι V T)

/-- A write of one element: data set, index, value. -/
abbrev Write (κ ι V : Type*) := κ × ι × V

/-- The steps after each of which the machine can stop. -/
inductive Op (κ ι V T : Type*)
  /-- `self.open(mode='w')`, line 77: the file is truncated. -/
  | truncate (t0 : T)
  /-- start of `cp`, line 85: the destination is truncated (`cp` does nothing if there is no source). -/
  | cpBegin
  /-- end of `cp`, line 85. -/
  | cpEnd
  /-- `self.open()`, line 86: mode `r+`. -/
  | openFile
  /-- one element of `self.f[...][s] = u`, line 101. -/
  | write (w : Write κ ι V)
  /-- `self.f.attrs['tstep'] = tstep`, line 89. -/
  | setTstep (n : ℕ)
  /-- `self.f.attrs['t'] = t`, line 90. -/
  | setT (t : T)
  /-- `self.close()`, lines 80 and 91. -/
  | closeFile

/-- Change the checkpoint file, if it is there. -/
def Disk.onChk (d : Disk κ ι V T) (f : H5 κ ι V T → H5 κ ι V T) : Disk κ ι V T := { d with chk := d.chk.map f }

/-- One element is written. -/
def H5.set [DecidableEq κ] [DecidableEq ι] (h : H5 κ ι V T) (w : Write κ ι V) : H5 κ ι V T :=
  { h with data := fun k i => if k = w.1 ∧ i = w.2.1 then some w.2.2 else h.data k i }

/-- The effect of a step on the disk. -/
def Op.run [DecidableEq κ] [DecidableEq ι] (d : Disk κ ι V T) : Op κ ι V T → Disk κ ι V T
  | .truncate t0 => { d with chk := some { data := fun _ _ => none, tstep := 0, t := t0, closed := false } }
  | .cpBegin => { d with old := if d.chk.isSome then none else d.old }
  | .cpEnd => { d with old := if d.chk.isSome then d.chk else d.old }
  | .openFile => d.onChk fun h => { h with closed := false }
  | .write w => d.onChk fun h => h.set w
  | .setTstep n => d.onChk fun h => { h with tstep := n }
  | .setT t => d.onChk fun h => { h with t := t }
  | .closeFile => d.onChk fun h => { h with closed := true }

/-- The effect of a sequence of steps. -/
def runOps [DecidableEq κ] [DecidableEq ι] (d : Disk κ ι V T) (l : List (Op κ ι V T)) : Disk κ ι V T := l.foldl Op.run d

/-- `Checkpoint.write` for all steps and names on one process, lines 87-88 and 95-101: `data` is the dictionary, its
values lists of arrays, `slice` the indices of `u.local_slice()`. -/
def rankWrites (data : List (κ × List (ι → V))) (slice : List ι) : List (Write κ ι V) :=
  data.flatMap fun d => d.2.flatMap fun u => slice.map fun i => (d.1, i, u i)

/-- `check_if_kill`, lines 111-124: every process looks for the file, `allreduce` adds up, the file is removed by
process 0 after that. `found` is what each process saw. -/
def checkIfKill {R : Type*} (ranks : List R) (found : R → Bool) (_rank : R) : Bool :=
  decide (0 < (ranks.map fun r => if found r then 1 else 0).sum)

/-- A call `update(t, tstep)`: the arguments, the answer of `check_if_kill`, the dictionary of arrays at that time, and
the order `writes` in which the writes of the processes happen. -/
structure Call (κ ι V T : Type*) where
  t : T
  tstep : ℕ
  kill : Bool
  data : List (κ × List (ι → V))
  writes : List (Write κ ι V)

/-- The condition of line 83. -/
def Call.writesFile (checkevery : ℕ) (c : Call κ ι V T) : Bool := c.tstep % checkevery == 0 || c.kill

/-- `Checkpoint.update`, lines 75-93, as steps; `fresh` says that `self.f` is `None`. -/
def Call.ops (t0 : T) (checkevery : ℕ) (fresh : Bool) (c : Call κ ι V T) : List (Op κ ι V T) :=
  (if fresh then [.truncate t0, .closeFile] else [])
    ++ if c.writesFile checkevery then
        [.cpBegin, .cpEnd, .openFile] ++ c.writes.map .write ++ [.setTstep c.tstep, .setT c.t, .closeFile]
      else []

/-- A sequence of calls on one object. `self.f` is never set to `None` again (`close` keeps it, lines 71-73); a kill ends the program (line 93). -/
def historyOps (t0 : T) (checkevery : ℕ) : Bool → List (Call κ ι V T) → List (Op κ ι V T)
  | _, [] => []
  | fresh, c :: l => c.ops t0 checkevery fresh ++ if c.kill then [] else historyOps t0 checkevery false l

/-- `Checkpoint.read` on one process, lines 103-109: the element at index `i` of the local slice. -/
def read (d : Disk κ ι V T) (k : κ) (i : ι) : Option V := (d.chk.bind fun h => h.data k i)

end Shenfun.Ckpt
