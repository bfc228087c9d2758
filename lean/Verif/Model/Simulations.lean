import Mathlib.Data.List.Basic
import Mathlib.Algebra.BigOperators.Group.List.Basic

/-!
# Model of `flamingpy/simulations.py`

Counts are exact (numpy keeps them in a `float64`, exact below 2⁵³).  `trials` is a natural number; a negative
number gives an empty range as zero does.
-/

namespace Flamingpy.Sim

/-! ### `ec_monte_carlo` -/

variable {S : Type}

/-- One pass of the loop body, simulations.py:98-107.  `trial` is `ec_mc_trial` (simulations.py:46-59) on the state
`S` of the rank (code, noise layer and generator); `none` is an exception. -/
def trialStep (trial : S → Option (Bool × S)) (size rank : ℕ) (c : ℕ × S) (i : ℕ) : Option (ℕ × S) :=
  if i % size = rank then do
    let r ← trial c.2
    pure (c.1 + r.1.toNat, r.2)
  else pure c

/-- simulations.py:93-107: `local_successes` of a rank. -/
def localSuccesses (trial : S → Option (Bool × S)) (trials size rank : ℕ) (s : S) : Option ℕ := do
  let c ← (List.range trials).foldlM (trialStep trial size rank) (0, s)
  pure c.1

/-- What `world_comm.Reduce(local_successes, successes, op=MPI.SUM, root=0)` leaves in `successes`, which starts as
zero, on the given rank; without MPI there is one rank, whose value is kept (simulations.py:109-112). -/
def reduceSum (locals : List ℕ) (rank : ℕ) : ℕ := if rank = 0 then locals.sum else 0

/-- `ec_monte_carlo`, simulations.py:62-116, run by all ranks `0, ..., size - 1`, rank `r` in initial state `s r`:
the value returned on each rank.  `none` if a rank raises. -/
def monteCarlo (trial : S → Option (Bool × S)) (trials size : ℕ) (s : ℕ → S) : Option (ℕ → ℤ) := do
  let locals ← (List.range size).mapM fun r => localSuccesses trial trials size r (s r)
  pure fun rank => (trials : ℤ) - reduceSum locals rank

/-! ### The results file of `run_ec_simulation` -/

/-- A Python value to be written with `"%s"`: a tuple, given by the texts of its items, or anything else, given by
its text. -/
inductive Val | tuple (items : List (List Char)) | other (text : List Char)

/-- `"%s" % (value)`.  The parentheses do not make a tuple: a tuple value *is* the argument list, and raises
`TypeError` unless it has exactly one item. -/
def Val.format : Val → Option (List Char)
  | .other t => some t
  | .tuple [t] => some t
  | .tuple _ => none

/-- The arguments and measurements of a run that are written.  `%i`, `%f` formatting and the clock are not modelled:
those fields are given as text. -/
structure Run where
  code : List Char
  codeArgs : List (List Char × Val)
  noise : List Char
  noiseArgs : List (List Char × Val)
  decoder : List Char
  decoderArgs : List (List Char × Val)
  errors : List Char
  trials : List Char
  time : List Char
  elapsed : List Char
  mpiSize : List Char

/-- `"%s," % x`. -/
def comma (x : List Char) : List Char := x ++ [',']

/-- simulations.py:179-183: the value of the weight options is put between double quotes. -/
def cell (key x : List Char) : List Char :=
  if key = "weight_opts".toList then comma ('"' :: x ++ ['"']) else comma x

/-- simulations.py:158-167, one entry per `file.write`.  Keys are strings. -/
def header (r : Run) : List (List Char) :=
  [comma "code".toList] ++ r.codeArgs.map (fun e => comma e.1) ++ [comma "noise".toList] ++
    r.noiseArgs.map (fun e => comma e.1) ++ [comma "decoder".toList] ++ r.decoderArgs.map (fun e => comma e.1) ++
    ["errors,trials,current_time,simulation_time,mpi_size\n".toList]

/-- simulations.py:172-194, one entry per `file.write`; `none` is the `TypeError` of the formatting. -/
def row (r : Run) : List (Option (List Char)) :=
  [some (comma r.code)] ++ r.codeArgs.map (fun e => e.2.format.map comma) ++ [some (comma r.noise)] ++
    r.noiseArgs.map (fun e => e.2.format.map comma) ++ [some (comma r.decoder)] ++
    r.decoderArgs.map (fun e => e.2.format.map (cell e.1)) ++
    [some (comma r.errors ++ comma r.trials ++ comma r.time ++ comma r.elapsed ++ r.mpiSize ++ ['\n'])]

/-- The file: absent, or its characters. -/
abbrev File := Option (List Char)

/-- The writes of a run, given the state of the file when it is opened (`open(..., "x")`, or `"a"` after a
`FileExistsError`), simulations.py:155-195. -/
def writes (f : File) (r : Run) : List (Option (List Char)) :=
  match f with
  | none => (header r).map some ++ row r
  | some _ => row r

/-- The text of the writes before the first exception, and whether there was none. -/
def runWrites : List (Option (List Char)) → List Char × Bool
  | [] => ([], true)
  | none :: _ => ([], false)
  | some t :: l => (t ++ (runWrites l).1, (runWrites l).2)

/-- The results part of a run on rank 0: the file, and whether the function returned.  The other ranks do not touch
the file (simulations.py:151).  After an exception the text written before it still reaches the file when Python
closes it. -/
def runFile (f : File) (r : Run) : File × Bool :=
  (some (f.getD [] ++ (runWrites (writes f r)).1), (runWrites (writes f r)).2)

/-- What a run can do to the file: reach the end of `runFile`; stop before opening the file (the simulation raised);
or be killed after it was opened, when some initial part of the text has reached the file. -/
inductive Effect (r : Run) : File → File → Prop
  | finished (f) : Effect r f (runFile f r).1
  | stopped (f) : Effect r f f
  | killed (f) (k : ℕ) : Effect r f (some (f.getD [] ++ (runWrites (writes f r)).1.take k))

end Flamingpy.Sim
