import Mathlib.Analysis.SpecialFunctions.Exp
import Mathlib.Analysis.Real.Pi.Bounds
import Mathlib.Algebra.Order.Floor.Ring

/-!
# Model of `flamingpy/cv/gkp.py`

Floating-point numbers are modelled by exact reals.  Arrays are handled
elementwise (the NumPy code is elementwise), as `List ℝ` where the length matters.
-/

namespace Flamingpy.Gkp

noncomputable section

/-- `np.divmod(x, alpha)` (used at cv/gkp.py:30): floored quotient and remainder.
Simplification: exact reals; `alpha = 0` (nan in NumPy) is not meaningful here. -/
def divmod (x alpha : ℝ) : ℤ × ℝ :=
  (⌊x / alpha⌋, x - alpha * ⌊x / alpha⌋)

/-- `integer_fractional`, cv/gkp.py:19-34, one element of the array. -/
def integerFractional (x alpha : ℝ) : ℤ × ℝ :=
  let intFrac := divmod x alpha
  let largeFrac : ℤ := if intFrac.2 > alpha / 2 then 1 else 0
  (intFrac.1 + largeFrac, intFrac.2 - alpha * largeFrac)

/-- The bin width `alpha = np.sqrt(np.pi)`, cv/gkp.py:54. -/
def binWidth : ℝ := Real.sqrt Real.pi

/-- `GKP_binner(outcomes)`, cv/gkp.py:37-62, one element; `return_fraction=False`. -/
def gkpBinner (outcome : ℝ) : ℤ :=
  (integerFractional outcome binWidth).1 % 2

/-- `GKP_binner(outcomes, return_fraction=True)`, cv/gkp.py:60-61, one element. -/
def gkpBinnerFrac (outcome : ℝ) : ℤ × ℝ :=
  let intFrac := integerFractional outcome binWidth
  (intFrac.1 % 2, intFrac.2)

/-- `range(-n_max, n_max)` as used at cv/gkp.py:128-129 and 141-142. -/
def symRange (nMax : ℕ) : List ℤ :=
  (List.range (2 * nMax)).map fun i : ℕ => (i : ℤ) - nMax

/-- `ex_val`, cv/gkp.py:125-126 (and `ex`, 138-139). -/
def exVal (val var : ℝ) (n : ℤ) : ℝ :=
  Real.exp (-((val - n * binWidth) ^ 2) / var)

/-- `Z_err_cond`, cv/gkp.py:91-161, one element (the scalar and array branches compute
the same expression elementwise, and the zero-denominator branch of the array version
with `replace_undefined` a number is the scalar one).  The `"bin_location"` string
option and arrays are in Model/GkpArray.  `factor = 1 - bit if use_hom_val else 1`. -/
def zErrCond (var homVal : ℝ) (varNum : ℕ := 10) (replaceUndefined : ℝ := 0)
    (useHomVal : Bool := false) : ℝ :=
  let nMax := varNum
  let bf := gkpBinnerFrac homVal
  let factor : ℤ := if useHomVal then 1 - bf.1 else 1
  let val := if useHomVal then homVal else bf.2
  let numerator := ((symRange nMax).map fun i => exVal val var (2 * i + factor)).sum
  let denominator := ((symRange nMax).map fun i => exVal val var i).sum
  if denominator ≠ 0 then numerator / denominator else replaceUndefined

/-- Largest bin number `n_max`, cv/gkp.py:78:
`int(np.ceil(var_num * np.amax(var)) // 2 * 4 + 1)`. -/
def zErrNMax (varMax varNum : ℝ) : ℤ :=
  ⌈varNum * varMax⌉ / 2 * 4 + 1

/-- `range(a, b, 4)` as used at cv/gkp.py:84. -/
def range4 (a b : ℤ) : List ℤ :=
  (List.range ((b - a + 3) / 4).toNat).map fun i : ℕ => a + 4 * (i : ℤ)

/-- `Z_err`, cv/gkp.py:65-88, the entry for variance `v` in an array whose maximum is
`varMax`.  `erf` is scipy's error function, a parameter. -/
def zErrEntry (erf : ℝ → ℝ) (varMax varNum v : ℝ) : ℝ :=
  (range4 (-(zErrNMax varMax varNum)) (zErrNMax varMax varNum)).foldl
    (fun error (i : ℤ) => error -
      0.5 * (erf (((i : ℝ) + 2) * binWidth / (2 * v)) - erf ((i : ℝ) * binWidth / (2 * v))))
    1

/-- `Z_err(var, var_num)`, cv/gkp.py:65-88, for a non-empty array of variances
(`np.amax` of an empty array raises). -/
def zErr (erf : ℝ → ℝ) (v : ℝ) (vs : List ℝ) (varNum : ℝ := 5) : List ℝ :=
  let varMax := vs.foldl max v
  (v :: vs).map (zErrEntry erf varMax varNum)

end

end Flamingpy.Gkp
