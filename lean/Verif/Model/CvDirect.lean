import Verif.Model.EGraph
import Verif.Model.Noise

/-!
# Model of a `CVLayer` made for an `EGraph` directly, `flamingpy/noise/cv.py:70-257`

Such a layer shares its graph with the caller, who may go on editing it.  It has no attribute `code`.
-/

namespace Flamingpy.CvDirect

open Flamingpy EGraph Noise

noncomputable section

/-- A `CVLayer` together with the graph it shares with its owner. -/
structure Direct where
  /-- `egraph` -/
  graph : EG
  /-- `_adj`, as returned by `adj_generator` -/
  rows : List (List ℤ)
  /-- the other attributes (`lay.pts` lists `_to_points[0]`, ..., `_to_points[_N - 1]`; `lay.adj` holds the entries
  of `rows`) and the attributes of the nodes -/
  lay : Layer Pt
  /-- `code.all_syndrome_inds` and `code.all_syndrome_coords`; `none` if there is no attribute `code` -/
  code : Option (List ℕ × List Pt)

/-- `CVLayer(g, delta=..., ...)` for an `EGraph`, noise/cv.py:70-105: the layer (`none` is an exception) and the graph,
whose dictionaries and matrix may have been generated.  `perfectPoints` is `g.graph.get("perfect_points")`, `a` are
the attributes of the nodes.  The points are read from `_to_points` here rather than when they are used. -/
def make (g : EG) (a : Attrs Pt) (perfectPoints : Option (List Pt)) (delta : ℝ) (pSwap : Option ℝ) (order : Order)
    (supplied : Option (List (String × List ℕ))) : Option Direct × EG :=
  match adjGenerator g with
  | (.error _, g) => (none, g)
  | (.ok rows, g) =>
    (do
      let pts ← pointsInOrder (g.toPoints.getD []) g.nodes.length
      let perfect ← (perfectPoints.getD []).mapM fun p => g.toIndices.bind fun d => PyDict.get? d p
      let states ← initStates pSwap supplied
      pure
        { graph := g
          rows
          lay :=
            { pts
              adj := fun i j => (((rows[i.val]?.bind fun row => row[j.val]?).getD 0 : ℤ) : ℝ)
              delta, pSwap, order, perfect, states
              attrs := a }
          code := none },
      g)

/-- A call of a method of the shared graph; the attributes of a removed node are lost.  (The dictionary `_to_points` is shared
with the graph until a qubit is removed, so that `add_qubit` also gives the layer points for indices from `_N` on, which no method
uses of its own accord; this is not modelled: the theorem about added qubits only speaks of indices below `_N`.) -/
def edit (d : Direct) (op : Op) : Direct :=
  let g := (step d.graph op).2
  let keep {α : Type} (f : Pt → Option α) : Pt → Option α := fun p =>
    if p ∈ d.graph.nodes ∧ p ∉ g.nodes then none else f p
  { d with
    graph := g
    lay := { d.lay with attrs := ⟨keep d.lay.attrs.state, keep d.lay.attrs.homQ, keep d.lay.attrs.homP, keep d.lay.attrs.bit⟩ } }

/-- Are the nodes of these modes still in the graph?  Otherwise `self.egraph.nodes[...]` raises a KeyError. -/
def present (d : Direct) (inds : List ℕ) : Prop := ∀ i ∈ inds, ∀ p, d.lay.pts[i]? = some p → p ∈ d.graph.nodes

open Classical in
/-- `populate_states`, noise/cv.py:121-140. -/
def populateD (d : Direct) (draw : List ℕ) : Option Direct :=
  (populate d.lay draw).bind fun l =>
    if ∀ e ∈ l.states, present d e.2 then some { d with lay := l } else none

open Classical in
/-- `measure_hom`, noise/cv.py:161-217.  `SCZ_apply` (used in the initial order, and to propagate means) fails if `_adj`
has not `_N` rows. -/
def measureD (d : Direct) (quad : Quad) (inds : Option (List ℕ)) (isArray : Bool)
    (updatedMeans updatedCovs : Option (List ℝ)) (propagate : Bool) (r : Rnd) : Option Direct :=
  if (d.lay.order = .initial ∨ updatedMeans = none ∧ propagate = true) ∧ d.rows.length ≠ d.lay.pts.length then none
  else if present d (inds.getD (List.range d.lay.pts.length)) then
    (measureHom d.lay quad inds isArray updatedMeans updatedCovs propagate r).map fun l => { d with lay := l }
  else none

/-- `measure_syndrome`, noise/cv.py:142-145; `none` without an attribute `code`. -/
def measureSyndromeD (d : Direct) (r : Rnd) : Option Direct :=
  d.code.bind fun c => measureD d .p (some c.1) false none none true r

/-- `inner_decoder`, noise/cv.py:147-159. -/
def innerDecoderD (d : Direct) : Option Direct :=
  d.code.bind fun c => (innerDecoder d.lay c.2).map fun l => { d with lay := l }

/-- `apply_noise`, noise/cv.py:108-119: was there no exception, and the layer afterwards. -/
def applyNoiseD (d : Direct) (draw : List ℕ) (r : Rnd) : Bool × Direct :=
  match populateD d draw with
  | none => (false, d)
  | some d => match measureSyndromeD d r with
    | none => (false, d)
    | some d => match innerDecoderD d with
      | none => (false, d)
      | some d => (true, d)

/-- `self.egraph.nodes[self._to_points[i]].get(...)` for the modes of a list; `none` is a KeyError. -/
def getAll {α : Type} (d : Direct) (inds : Option (List ℕ)) (f : Pt → Option α) : Option (List (Option α)) :=
  (inds.getD (List.range d.lay.pts.length)).mapM fun i =>
    (d.lay.pts[i]?).bind fun p => if p ∈ d.graph.nodes then some (f p) else none

/-- `hom_outcomes`, noise/cv.py:246-251. -/
def homOutcomes (d : Direct) (inds : Option (List ℕ)) (quad : Quad) : Option (List (Option ℝ)) :=
  getAll d inds (match quad with
    | .q => d.lay.attrs.homQ
    | .p => d.lay.attrs.homP)

/-- `bit_values`, noise/cv.py:253-258. -/
def bitValues (d : Direct) (inds : Option (List ℕ)) : Option (List (Option ℤ)) := getAll d inds d.lay.attrs.bit

/-- `SCZ`, noise/cv.py:219-222, for a layer whose `_adj` has `_N` rows. -/
def scz (d : Direct) : Matrix (Fin d.lay.pts.length ⊕ Fin d.lay.pts.length) (Fin d.lay.pts.length ⊕ Fin d.lay.pts.length) ℝ :=
  CvOps.sczMat d.lay.adj

end

end Flamingpy.CvDirect
