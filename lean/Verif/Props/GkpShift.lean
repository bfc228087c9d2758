import Verif.Props.GkpSym
import Verif.Props.WeightHist

/-!
# C102, continued: bits and weights after shifts of the outcomes
-/

namespace Flamingpy.Weights

open Flamingpy Flamingpy.SurfaceCode Flamingpy.Gkp

/-- C102.  Moving an outcome by `n √π` flips the bit if `n` is odd and keeps it otherwise. -/
theorem C102_shift_bit (x : ℝ) (n : ℤ) : gkpBinner (x + n * √Real.pi) = (gkpBinner x + n) % 2 := by
  have hf := integerFractional_frac x binWidth_pos
  have he := integerFractional_eq x binWidth
  set k := (integerFractional x binWidth).1
  set f := (integerFractional x binWidth).2
  have e1 := (frac_of (x := x) (n := k) (f := f) he hf.1 hf.2).2
  have e2 := (frac_of (x := x + n * √Real.pi) (n := k + n) (f := f)
    (by conv_lhs => rw [he]
        change _ * √Real.pi + _ + _ = _; push_cast; ring) hf.1 hf.2).2
  rw [e1, e2]
  omega

theorem pCount_congr {a a' : Attrs} (h : a'.state = a.state) (nbrs : List V) : pCount a' nbrs = pCount a nbrs := by
  unfold pCount
  rw [h]

/-- C102.  The weights that a call assigns, and whether it raises, do not change if the outcomes stored on the qubits move by multiples of
`√π`, each qubit by its own. -/
theorem C102_shift_weights (code : Code) (SG : StabGraph) (c : Call) (n : V → ℤ) (st : WState) :
    assignCall code SG { c with attrs := { c.attrs with homValP := fun q => (c.attrs.homValP q).map (· + n q * √Real.pi) } } st =
      assignCall code SG c st := by
  have hb : blueprintWeight c.opts { c.attrs with homValP := fun q => (c.attrs.homValP q).map (· + n q * √Real.pi) } code.graph =
      blueprintWeight c.opts c.attrs code.graph := by
    funext q
    have he : errProb c.opts { c.attrs with homValP := fun q => (c.attrs.homValP q).map (· + n q * √Real.pi) } (adjOf code.graph q) q =
        errProb c.opts c.attrs (adjOf code.graph q) q := by
      unfold errProb
      cases c.opts.probPrecomputed with
      | true => rfl
      | false =>
        simp only [Bool.false_eq_true, if_false]
        cases c.opts.delta with
        | none => rfl
        | some d =>
          cases hx : c.attrs.homValP q with
          | none => rfl
          | some x =>
            simp only [need, Option.map_some]
            exact congrArg Except.ok (C102_shift _ x _ _ (n q))
    unfold blueprintWeight
    simp only [he]
    rfl
  have hu : ufWeight { c.attrs with homValP := fun q => (c.attrs.homValP q).map (· + n q * √Real.pi) } code.graph = ufWeight c.attrs code.graph := rfl
  unfold assignCall
  simp only [hb, hu]

-- the outcome 1 of a qubit moves by three bins: the bit flips
example : gkpBinner (1 + 3 * √Real.pi) ≠ gkpBinner 1 := by
  have := C102_shift_bit 1 3
  push_cast at this
  rw [this]
  omega

end Flamingpy.Weights
