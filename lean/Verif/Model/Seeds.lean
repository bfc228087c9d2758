import Verif.Model.Simulations

/-!
# Model of seeding and of repeated calls of `run_ec_simulation`, and of the decoder names of the command line, `flamingpy/simulations.py`
-/

namespace Flamingpy.Sim

/-- The decimals of a time of `micro` microseconds after the second as Python prints them: without trailing zeros, but at least one.  `strip k f`,
for the `k + 1` decimals that form the number `f`, is the number formed by what remains, and how many decimals remain less one. -/
def strip : ℕ → ℕ → ℕ × ℕ
  | 0, f => (f, 0)
  | k + 1, f => if f % 10 = 0 then strip k (f / 10) else (f, k + 1)

/-- `int_time = int(str(datetime.now().timestamp()).replace(".", ""))`, simulations.py:27: the digits of the seconds followed by the decimals.
(Times of today have ten digits before the point; a `float` then determines six decimals, so that `str` prints the microseconds of the clock.) -/
def intTime (sec micro : ℕ) : ℕ := sec * 10 ^ ((strip 5 micro).2 + 1) + (strip 5 micro).1

/-- `mpi_rank + int_time`, simulations.py:96.  Every rank is a process of its own with its own `int_time`. -/
def seed (times : ℕ → ℕ) (rank : ℕ) : ℕ := rank + times rank

/-- The arguments of a call of `run_ec_simulation` (simulations.py:119-121): how the state of a rank (code, noise layer, generator) is made from a new
generator of type `γ` (simulations.py:127-128), what a trial does with it, the number of trials, and the texts to be written. -/
structure Call (γ : Type) where
  S : Type
  start : γ → S
  trial : S → Option (Bool × S)
  trials : ℕ
  texts : Run

/-- `run_ec_simulation` up to the number of errors that it gets from `ec_monte_carlo` on rank 0, simulations.py:127-149, 96.  `rng` is
`np.random.default_rng`: the generator made from a seed. -/
def Call.errors {γ : Type} (rng : ℕ → γ) (times : ℕ → ℕ) (size : ℕ) (a : Call γ) : Option ℤ :=
  (monteCarlo a.trial a.trials size fun r => a.start (rng (seed times r))).map fun err => err 0

/-- The row of a call: the texts of the arguments and the numbers, simulations.py:184-194.  `clock` are the texts of the time and the duration. -/
def Call.record {γ : Type} (size : ℕ) (a : Call γ) (errors : ℤ) (clock : List Char × List Char) : Run :=
  { a.texts with
    errors := (toString errors).toList
    trials := (toString a.trials).toList
    time := clock.1
    elapsed := clock.2
    mpiSize := (toString size).toList }

/-- `run_ec_simulation`, simulations.py:119-195, on rank 0, as an effect on the file; `none` is an exception. -/
def Call.run {γ : Type} (rng : ℕ → γ) (times : ℕ → ℕ) (size : ℕ) (f : File) (e : Call γ × (List Char × List Char)) : Option File := do
  let errors ← e.1.errors rng times size
  let r := runFile f (e.1.record size errors e.2)
  if r.2 then some r.1 else none

/-- Several calls, one after the other, in the same processes: `int_time` is computed when the module is imported (simulations.py:27), so that it is
the same for all calls. -/
def session {γ : Type} (rng : ℕ → γ) (times : ℕ → ℕ) (size : ℕ) (f : File) (l : List (Call γ × (List Char × List Char))) : Option File :=
  l.foldlM (Call.run rng times size) f

/-- The decoder that a script run with `-decoder name` uses, simulations.py:232-237; `none` is the `ValueError`.  (`lower` is the one of ASCII; no other
character has a lower case that occurs in the names.) -/
def mainDecoder (name : String) : Option String :=
  if name.toLower ∈ ["unionfind", "uf", "union-find", "union find"] then some "UF"
  else if name.toLower ∈ ["mwpm", "minimum weight perfect matching"] then some "MWPM"
  else none

end Flamingpy.Sim
