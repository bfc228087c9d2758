import Verif.Model.SurfaceCode

/-!
# Model of the argument handling of `RHG_graph`, `flamingpy/codes/surface_code.py:115-245`

Booleans and arrays of more than one dimension are not modelled.
-/

namespace Flamingpy.SurfaceCode

open Flamingpy

/-- The argument `dims`: a Python integer; a NumPy integer (which is not an instance of `int`); a tuple, list or array; or anything else. -/
inductive DimsArg where
  | int (n : ℤ)
  | npInt (n : ℤ)
  | seq (l : List ℤ)
  | other

/-- The argument `boundaries`: a string; a NumPy array of strings; a Python list or tuple of strings; or anything that cannot be iterated. -/
inductive BoundsArg where
  | str (s : String)
  | array (l : List String)
  | list (l : List String)
  | other

/-- What is raised. -/
inductive RhgErr where
  | typeError | valueError | keyError | attributeError
deriving DecidableEq, Repr

/-- codes/surface_code.py:160-165. -/
def rhgDims : DimsArg → Except RhgErr (Fin 3 → ℤ)
  | .int n => .ok fun _ => n
  | .npInt _ => .error .typeError
  | .seq l => if l.length = 3 then .ok fun i => l.getD i.val 0 else .error .valueError
  | .other => .error .typeError

/-- The keys of `max_dict`, codes/surface_code.py:172. -/
def bdOf (s : String) : Option Bd :=
  PyDict.get? [("primal", Bd.primal), ("dual", .dual), ("periodic", .periodic)] s

/-- codes/surface_code.py:168-173: the boundaries the loop goes through, and whether they are an array; a name without an entry in
`str_to_bound` is the array `np.array(None)`, over which one cannot iterate; an unknown entry is a KeyError. -/
def rhgBounds : BoundsArg → Except RhgErr (List Bd × Bool)
  | .str s => match strToBound s with
    | some t => .ok ([t 0, t 1, t 2], true)
    | none => .error .typeError
  | .array l => match l.mapM bdOf with
    | some t => .ok (t, true)
    | none => .error .keyError
  | .list l => match l.mapM bdOf with
    | some t => .ok (t, false)
    | none => .error .keyError
  | .other => .error .typeError

/-- `RHG_graph(dims, boundaries, polarity)`, codes/surface_code.py:115-245; `o` is the iteration order of `denested_six_bodies`.
In `dims - np.array([...])` the array must have three entries, or one, which is used for all axes; but `dual_inds` and
`periodic_inds` then know about the first axis only (`.primal` stands for neither).  A negative size gives an empty range,
like the size 0.  A list compared with a string is `False`, which has no `nonzero`. -/
def rhgGraphArgs (o : SetOrder) (d : DimsArg) (b : BoundsArg) (pol : Option (V → V → ℤ)) : Except RhgErr RGraph := do
  let dims ← rhgDims d
  let (bs, isArray) ← rhgBounds b
  let n : Fin 3 → ℕ := fun i => (dims i).toNat
  match bs with
  | [x, y, z] =>
    if isArray then pure (rhgGraph n ![x, y, z] pol (o.ord 0 (denested n ![x, y, z]))) else throw .attributeError
  | [x] =>
    if isArray then pure (rhgGraph n ![x, .primal, .primal] pol (o.ord 0 (denested n ![x, x, x]))) else throw .attributeError
  | _ => throw .valueError

end Flamingpy.SurfaceCode
