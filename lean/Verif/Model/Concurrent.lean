import Verif.Model.Simulations
import Mathlib.Logic.Function.Basic
import Mathlib.Logic.Relation

/-!
# Model of several simulations writing to the same results file

`run_ec_simulation` (simulations.py:151-195) opens the file with mode `"x"` and, if it exists, with mode `"a"`; it writes through Python's
buffers and closes the file.  Mode `"x"` does not set `O_APPEND`: what its owner flushes goes to its own position in the file.  Mode `"a"` does:
what its owner flushes goes to the end the file has at that moment.
-/

namespace Flamingpy.Sim

/-- One running simulation, as far as the results file is concerned; `pending` is the text not flushed yet. -/
inductive Proc
  /-- Before simulations.py:157. -/
  | idle
  /-- `open(file_name, "x")` succeeded (simulations.py:157); `pos` is the position in the file. -/
  | creating (pos : ℕ) (pending : List Char)
  /-- `open(file_name, "a")` succeeded (simulations.py:170). -/
  | appending (pending : List Char)
  /-- `file.close()` returned (simulations.py:195). -/
  | closed
  /-- Killed, or the simulation raised before the file was opened. -/
  | stopped

/-- The file and the simulations. -/
structure World (ι : Type) where
  file : File
  procs : ι → Proc

/-- `write(2)` at a position of the file. -/
def overwrite (c : List Char) (pos : ℕ) (t : List Char) : List Char := c.take pos ++ t ++ c.drop (pos + t.length)

/-- What a simulation writes in all: the text before the first exception, see `runFile` (simulations.py:158-194). -/
def textOf (f : File) (r : Run) : List Char := (runWrites (writes f r)).1

/-- One step of one simulation.  `whole = true`: the text is flushed at once when the file is closed, as Python does with less text than its
buffers hold (8192 bytes); otherwise it may be flushed in parts, split anywhere. -/
inductive Step {ι : Type} [DecidableEq ι] (whole : Bool) (runs : ι → Run) : World ι → World ι → Prop
  /-- simulations.py:157: the file does not exist and is created. -/
  | create (w i) : w.procs i = .idle → w.file = none →
      Step whole runs w ⟨some [], Function.update w.procs i (.creating 0 (textOf none (runs i)))⟩
  /-- simulations.py:169-170: the file exists. -/
  | append (w i c) : w.procs i = .idle → w.file = some c →
      Step whole runs w ⟨w.file, Function.update w.procs i (.appending (textOf (some c) (runs i)))⟩
  /-- Text reaches the file. -/
  | flushNew (w i c pos a b) : w.procs i = .creating pos (a ++ b) → w.file = some c → (whole = true → b = []) →
      Step whole runs w ⟨some (overwrite c pos a), Function.update w.procs i (.creating (pos + a.length) b)⟩
  | flushOld (w i c a b) : w.procs i = .appending (a ++ b) → w.file = some c → (whole = true → b = []) →
      Step whole runs w ⟨some (c ++ a), Function.update w.procs i (.appending b)⟩
  /-- simulations.py:195, once everything has been flushed. -/
  | close (w i) : (∃ pos, w.procs i = .creating pos []) ∨ w.procs i = .appending [] →
      Step whole runs w ⟨w.file, Function.update w.procs i .closed⟩
  /-- The process is killed, or its simulation raises. -/
  | stop (w i) : Step whole runs w ⟨w.file, Function.update w.procs i .stopped⟩

/-- What any schedule can lead to. -/
def Reaches {ι : Type} [DecidableEq ι] (whole : Bool) (runs : ι → Run) : World ι → World ι → Prop :=
  Relation.ReflTransGen (Step whole runs)

end Flamingpy.Sim
