import Verif.Model.SurfaceCode

/-!
# Model of `flamingpy/decoders/decoder.py` (recovery, check_correction, correct)

The `bit_val` attributes of the nodes of the code graph are a function `V → Bool` (1 = `true`).
-/

namespace Flamingpy.SurfaceCode

open Flamingpy

/-- One step of `recovery`: `code.graph.nodes[qubit]["bit_val"] ^= 1`. -/
def flip (bits : V → Bool) (q : V) : V → Bool := Function.update bits q (!bits q)

/-- `recovery`, decoders/decoder.py:122-148 (printing omitted).  The recovery set is given as a list
of its elements in iteration order; an element that is not a node (for instance `None`, written
`none`) is a KeyError, the result `none`; the flips made before the error are not modelled. -/
def recovery (nodes : List V) (qs : List (Option V)) (bits : V → Bool) : Option (V → Bool) :=
  qs.foldlM (fun b q => match q with
    | some q => if q ∈ nodes then some (flip b q) else none
    | none => none) bits

/-- `planes_to_check`, decoders/decoder.py:197-202. -/
def planesToCheck (ec : Ec) (b : Boundaries) : List (Fin 3) :=
  match b with
  | .periodic => [0, 1, 2]
  | .toric => [0, 1]
  | .open => match ec with
    | .primal => [0]
    | .dual => [1]

/-- `minimum`, decoders/decoder.py:204. -/
def sheetMin : Ec → ℤ
  | .primal => 0
  | .dual => 1

/-- `range(minimum, maximum, 2)`, decoders/decoder.py:206-207. -/
def sheets (ec : Ec) (d : ℕ) (sanity : Bool) : List ℤ :=
  let maximum : ℤ := if sanity then 2 * (d : ℤ) else sheetMin ec + 2
  (List.range ((maximum - sheetMin ec + 1) / 2).toNat).map fun k : ℕ => sheetMin ec + 2 * (k : ℤ)

/-- The parity of a sheet, decoders/decoder.py:208-213 (the order of the set is irrelevant for the
xor and is taken to be that of the node list). -/
def sheetParity (code : Code) (bits : V → Bool) (i : Fin 3) (sheet : ℤ) : Bool :=
  let only := (sliceCoords (PyDict.keys code.graph.nodes) i sheet).dedup.filter
    fun p => decide (p ∈ code.syndrome)
  only.foldl (fun parity node => xor parity (bits node)) false

/-- `truth_dict[plane]`, decoders/decoder.py:196-214. -/
def truthList (code : Code) (bits : V → Bool) (sanity : Bool) (i : Fin 3) : List Bool :=
  (sheets code.ec (code.dims i) sanity).map fun sheet => !sheetParity code bits i sheet

/-- `check_correction`, decoders/decoder.py:151-224: the verdict for the code's error complex
(`truth_dict[i][0]` of an empty list is an IndexError, the result `none`). -/
def checkCorrection (code : Code) (bits : V → Bool) (sanity : Bool) : Option Bool :=
  ((planesToCheck code.ec code.boundaries).mapM fun i => (truthList code bits sanity i).head?).map
    fun l => l.all id

/-- The `truth_dict` returned with `sanity_check=True`: empty for planes that are not checked. -/
def truthDict (code : Code) (bits : V → Bool) (i : Fin 3) : List Bool :=
  if i ∈ planesToCheck code.ec code.boundaries then truthList code bits true i else []

/-- `correct`, decoders/decoder.py:227-288, for a decoder given as a function from the bit values
to its recovery set, `none` being an error (drawing omitted, weight assignment is part of the
decoder): the final bit values and the verdict. -/
def correct (code : Code) (decoder : (V → Bool) → Option (List (Option V))) (sanity : Bool) (bits : V → Bool) :
    Option ((V → Bool) × Bool) := do
  let qs ← decoder bits
  let bits' ← recovery (PyDict.keys code.graph.nodes) qs bits
  let ok ← checkCorrection code bits' sanity
  pure (bits', ok)

end Flamingpy.SurfaceCode
