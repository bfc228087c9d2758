import Verif.Model.Gkp

/-!
# Model of `Z_err_cond` (cv/gkp.py:91-161) on scalars and arrays

`Model/Gkp` models one entry of the result.  Here: which branch is taken, how NumPy combines arrays of different
sizes, the zero denominators, `replace_undefined="bin_location"`, and the errors raised.

Numbers are exact reals; the only effect of floating-point numbers that is kept is that `np.exp` may return zero
(it does so below about -745): it is a parameter `E`.  Division by a zero variance (`inf` or `nan` in NumPy) is not
meaningful here.  Arrays have one dimension.  `var_num = 0` (where `np.sum` of an empty list is a scalar) is
meaningful in the scalar branch only.
-/

namespace Flamingpy.Gkp

noncomputable section

/-- An argument `var` or `hom_val`: `np.isscalar`, or an array (or list) with one dimension. -/
inductive Arg where
  | scalar (x : ℝ)
  | array (xs : List ℝ)

/-- `np.size`. -/
def Arg.size : Arg → ℕ
  | .scalar _ => 1
  | .array xs => xs.length

/-- The entries of an argument. -/
def Arg.entries : Arg → List ℝ
  | .scalar x => [x]
  | .array xs => xs

/-- The argument `replace_undefined`: a number, or the string `"bin_location"` (cv/gkp.py:105-108). -/
inductive Replace where
  | number (x : ℝ)
  | binLocation

/-- What is raised: a `ValueError` (shapes) or an `IndexError`. -/
inductive NpErr where
  | value
  | index
  deriving DecidableEq

/-- What is returned: a number, an array, or (cv/gkp.py:133) the string `"bin_location"`. -/
inductive Out where
  | number (x : ℝ)
  | array (xs : List ℝ)
  | string

/-- `numerator` of one entry, cv/gkp.py:119-121, 128 and 141; `ex_val` and `ex` with `np.exp` the parameter `E`. -/
def numTerm (E : ℝ → ℝ) (varNum : ℕ) (useHomVal : Bool) (var homVal : ℝ) : ℝ :=
  let bf := gkpBinnerFrac homVal
  let factor : ℤ := if useHomVal then 1 - bf.1 else 1
  let val := if useHomVal then homVal else bf.2
  ((symRange varNum).map fun i : ℤ => E (-((val - ((2 * i + factor : ℤ) : ℝ) * binWidth) ^ 2) / var)).sum

/-- `denominator` of one entry, cv/gkp.py:129 and 142. -/
def denTerm (E : ℝ → ℝ) (varNum : ℕ) (useHomVal : Bool) (var homVal : ℝ) : ℝ :=
  let val := if useHomVal then homVal else (gkpBinnerFrac homVal).2
  ((symRange varNum).map fun i : ℤ => E (-((val - (i : ℝ) * binWidth) ^ 2) / var)).sum

/-- The scalar branch, cv/gkp.py:123-133. -/
def zErrCondScalar (E : ℝ → ℝ) (varNum : ℕ) (repl : Replace) (useHomVal : Bool) (var homVal : ℝ) : Out :=
  if denTerm E varNum useHomVal var homVal ≠ 0 then
    .number (numTerm E varNum useHomVal var homVal / denTerm E varNum useHomVal var homVal)
  else match repl with
    | .number x => .number x
    | .binLocation => .string

/-- NumPy's broadcasting of two one-dimensional arrays (or a scalar and an array): equal lengths, or one of them has
length one and is repeated; otherwise a `ValueError` (cv/gkp.py:139, the division by `var`). -/
def broadcast (xs ys : List ℝ) : Except NpErr (List (ℝ × ℝ)) :=
  if xs.length = ys.length then .ok (xs.zip ys)
  else if ys.length = 1 then .ok (xs.zip (List.replicate xs.length (ys.headD 0)))
  else if xs.length = 1 then .ok ((List.replicate ys.length (xs.headD 0)).zip ys)
  else .error .value

/-- `np.full(k, value)` with `value` an array, cv/gkp.py:153. -/
def npFull (k : ℕ) (value : List ℝ) : Except NpErr (List ℝ) :=
  if value.length = k then .ok value
  else if value.length = 1 then .ok (List.replicate k (value.headD 0))
  else .error .value

/-- `zero_dem_result`, cv/gkp.py:149-152, as an array. -/
def zeroDem (repl : Replace) (useHomVal : Bool) (hom : Arg) : List ℝ :=
  match repl with
  | .number x => [x]
  | .binLocation => hom.entries.map fun h => |if useHomVal then h else (gkpBinnerFrac h).2| / binWidth

/-- `error[idx] = values` (same length), as in cv/gkp.py:153 and 158. -/
def setMany (error : List ℝ) (idx : List ℕ) (values : List ℝ) : List ℝ :=
  (idx.zip values).foldl (fun e p => e.set p.1 p.2) error

/-- The array branch, cv/gkp.py:134-161.  `junk` is the content of `np.empty` at line 146. -/
def zErrCondArray (E : ℝ → ℝ) (varNum : ℕ) (repl : Replace) (useHomVal : Bool) (junk : ℕ → ℝ) (var hom : Arg) :
    Except NpErr Out := do
  let ps ← broadcast var.entries hom.entries
  let numerator := ps.map fun p => numTerm E varNum useHomVal p.1 p.2
  let denominator := ps.map fun p => denTerm E varNum useHomVal p.1 p.2
  let where0 := (List.range denominator.length).filter fun i => denominator.getD i 0 = 0
  -- np.delete(np.arange(np.size(var)), where_0)
  if where0.any fun i => var.size ≤ i then throw .index
  let theRest := (List.range var.size).filter fun i => i ∉ where0
  let mut error := (List.range var.size).map junk
  if where0.length ≠ 0 then
    let fill ← npFull where0.length (zeroDem repl useHomVal hom)
    error := setMany error where0 fill
  if theRest.length > 0 then
    if var.size = 1 then
      -- numerator = np.array([numerator]): one row, which has to fit into one entry
      if ps.length ≠ 1 then throw .value
      error := setMany error theRest [numerator.headD 0 / denominator.headD 0]
    else
      error := setMany error theRest (theRest.map fun i => numerator.getD i 0 / denominator.getD i 0)
  if var.size = 1 then return .number (error.headD 0)
  return .array error

/-- `Z_err_cond(var, hom_val, var_num, replace_undefined, use_hom_val)`, cv/gkp.py:91-161. -/
def zErrCondFull (E : ℝ → ℝ) (varNum : ℕ) (repl : Replace) (useHomVal : Bool) (junk : ℕ → ℝ) (var hom : Arg) :
    Except NpErr Out :=
  match var, hom with
  | .scalar v, .scalar h => .ok (zErrCondScalar E varNum repl useHomVal v h)
  | _, _ => zErrCondArray E varNum repl useHomVal junk var hom

end

end Flamingpy.Gkp
