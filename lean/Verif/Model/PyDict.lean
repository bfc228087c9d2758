/-!
# Python dictionaries as insertion-ordered association lists
-/

namespace Flamingpy.PyDict

variable {K V : Type} [DecidableEq K]

/-- `d.get(k)`. -/
def get? (d : List (K × V)) (k : K) : Option V := (d.find? fun e => decide (e.1 = k)).map (·.2)

/-- `d[k] = v`: replaces in place, or appends a new key. -/
def set (d : List (K × V)) (k : K) (v : V) : List (K × V) :=
  if d.any fun e => decide (e.1 = k) then d.map fun e => if e.1 = k then (k, v) else e
  else d ++ [(k, v)]

/-- `d.pop(k)` / `del d[k]` for a key that is present. -/
def pop (d : List (K × V)) (k : K) : List (K × V) := d.filter fun e => decide (e.1 ≠ k)

/-- A dict comprehension / `dict(pairs)`. -/
def ofPairs (l : List (K × V)) : List (K × V) := l.foldl (fun d e => set d e.1 e.2) []

/-- `list(d)`. -/
def keys (d : List (K × V)) : List K := d.map (·.1)

/-- `list(d.values())`. -/
def values (d : List (K × V)) : List V := d.map (·.2)

end Flamingpy.PyDict
