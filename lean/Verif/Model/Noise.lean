import Verif.Model.PyDict
import Verif.Model.CvOps
import Verif.Model.Gkp
import Verif.Model.SurfaceCode

/-!
# Model of `flamingpy/noise/iid.py` and of `CVLayer`, `flamingpy/noise/cv.py:27-349`

Floats are exact reals; random numbers are inputs.  Node attributes are functions of the node, `none`
meaning that the attribute is missing.  `none` as a result is any exception.
-/

namespace Flamingpy.Noise

open Flamingpy

variable {P : Type} [DecidableEq P]

/-- The node attributes used by the noise models. -/
structure Attrs (P : Type) where
  state : P → Option String
  homQ : P → Option ℝ
  homP : P → Option ℝ
  bit : P → Option ℤ

/-! ### `IidNoise` -/

noncomputable section

/-- `IidNoise.__init__`, noise/iid.py:28-34: the stored probability, `none` is the ValueError. -/
def iidInit (p : ℝ) : Option ℝ := if p < 0.0 ∨ p > 1.0 then none else some p

/-- `IidNoise.apply_noise`, noise/iid.py:36-47, for the nodes in iteration order; `u i` is the `i`-th value
of `rng.random()`. -/
def iidApply (p : ℝ) (u : ℕ → ℝ) (nodes : List P) (a : Attrs P) : Attrs P :=
  nodes.zipIdx.foldl (fun a e =>
    { a with bit := Function.update a.bit e.1 (some (if u e.2 < p then 1 else 0)) }) a

/-! ### `CVLayer` -/

/-- The documented sampling orders. -/
inductive Order where
  | initial | twoStep
deriving DecidableEq

/-- The two quadratures. -/
inductive Quad where
  | q | p
deriving DecidableEq

/-- A `CVLayer` (noise/cv.py:70-105) with the attributes of its graph. -/
structure Layer (P : Type) where
  /-- `_to_points`, in order of the index; its length is `_N` -/
  pts : List P
  /-- `_adj` -/
  adj : Matrix (Fin pts.length) (Fin pts.length) ℝ
  delta : ℝ
  pSwap : Option ℝ
  order : Order
  /-- `_perfect_inds`; `[]` also stands for `None` -/
  perfect : List ℕ
  states : List (String × List ℕ)
  attrs : Attrs P

/-- The `states` attribute set by `CVLayer.__init__`, noise/cv.py:91-105, `none` being an exception.  Index
lists are NumPy arrays (a plain list would fail later, at `indices + self._N`). -/
def initStates (pSwap : Option ℝ) (supplied : Option (List (String × List ℕ))) :
    Option (List (String × List ℕ)) :=
  let states := match supplied with
    | none => [("p", [])]
    | some [] => [("p", [])]
    | some s => s
  match pSwap, supplied with
  | some _, some s => (PyDict.get? s "p").bind fun ps => if 0 < ps.length then none else some states
  | _, _ => some states

/-- The random numbers of one call: normal deviates, uniform numbers, random bits. -/
structure Rnd where
  z : ℕ → ℝ
  u : ℕ → ℝ
  b : ℕ → ℤ

/-- `p_inds`, noise/cv.py:260-263. -/
def Layer.pInds (L : Layer P) : Option (List ℕ) := PyDict.get? L.states "p"

/-- `gkp_inds`, noise/cv.py:265-268. -/
def Layer.gkpInds (L : Layer P) : Option (List ℕ) := PyDict.get? L.states "GKP"

/-- noise/cv.py:319-320: the indices drawn, if `rng.binomial(N, p_swap)` returns `num` and `rng.choice(range(N), size=k, replace=False)`
returns `choice k`. -/
def squeezedDraw (num : ℕ) (choice : ℕ → List ℕ) : List ℕ := choice num

/-- `_generate_squeezed_indices`, noise/cv.py:314-321; `draw` is the value of `rng.choice(range(N), ...)`. -/
def generateSqueezed (L : Layer P) (draw : List ℕ) : Layer P :=
  { L with states := PyDict.set L.states "p" (if L.pSwap = some 1 then List.range L.pts.length else draw) }

/-- `_generate_gkp_indices`, noise/cv.py:306-312 (the iteration order of the set difference is taken to be
ascending). -/
def generateGkp (L : Layer P) : Layer P :=
  let used := (PyDict.values L.states).flatten
  { L with states := PyDict.set L.states "GKP" ((List.range L.pts.length).filter fun i => decide (i ∉ used)) }

/-- `self.egraph.nodes[self._to_points[ind]]["state"] = psi`, noise/cv.py:275; `none` is the KeyError of
`_to_points`. -/
def labelOne (psi : String) (L : Layer P) (ind : ℕ) : Option (Layer P) :=
  (L.pts[ind]?).map fun p =>
    { L with attrs := { L.attrs with state := Function.update L.attrs.state p (some psi) } }

/-- `_apply_state_labels`, noise/cv.py:271-275. -/
def applyLabels (L : Layer P) : Option (Layer P) :=
  L.states.foldlM (fun L e => e.2.foldlM (labelOne e.1) L) L

/-- `if self.p_swap`. -/
def swaps (L : Layer P) : Prop := ∃ x, L.pSwap = some x ∧ x ≠ 0

open Classical in
/-- `populate_states`, noise/cv.py:121-140. -/
def populate (L : Layer P) (draw : List ℕ) : Option (Layer P) :=
  let L := if swaps L then generateSqueezed L draw else L
  applyLabels (generateGkp L)

/-- Array assignment `a[indices] = v` (with one value per index) on a vector given as a function; `none` is
the IndexError for a vector of length `len`. -/
def assign (len : ℕ) (a : ℕ → ℝ) (indices : List ℕ) (v : ℕ → ℝ) : Option (ℕ → ℝ) :=
  indices.foldlM (fun a i => if i < len then some (Function.update a i (v i)) else none) a

/-- The first `len` values. -/
def toList (len : ℕ) (a : ℕ → ℝ) : List ℝ := (List.range len).map a

/-- An array of length `2N` as a vector of quadratures. -/
def quadVec (N : ℕ) (quads : List ℝ) : Fin N ⊕ Fin N → ℝ :=
  Sum.elim (fun i => quads.getD i.val 0) fun i => quads.getD (N + i.val) 0

/-- A vector of quadratures as an array. -/
def ofQuadVec {N : ℕ} (v : Fin N ⊕ Fin N → ℝ) : List ℝ :=
  (List.ofFn fun i => v (.inl i)) ++ List.ofFn fun i => v (.inr i)

/-- `SCZ_apply(self._adj, quads)` for a one-dimensional array; `none` is the dimension mismatch. -/
def sczList {N : ℕ} (adj : Matrix (Fin N) (Fin N) ℝ) (quads : List ℝ) : Option (List ℝ) :=
  if quads.length = 2 * N then some (ofQuadVec (CvOps.sczApply1 adj (quadVec N quads))) else none

/-- `val_funcs` at noise/cv.py:332-338: the random value of mode `i`; `none` is the KeyError. -/
def meanOf (r : Rnd) (state : String) : Option (ℕ → ℝ) :=
  PyDict.get? [("p", fun i => r.u i * (2 * √Real.pi)), ("GKP", fun i => r.b i * √Real.pi)] state

/-- `_means_sampler`, noise/cv.py:323-349. -/
def meansSampler (L : Layer P) (propagate : Bool) (r : Rnd) : Option (List ℝ) := do
  let N := L.pts.length
  match L.order with
  | .initial => pure (toList (2 * N) fun _ => 0)
  | .twoStep =>
    let means ← L.states.foldlM (fun a e =>
      if 0 < e.2.length then (meanOf r e.1).bind fun f => assign (2 * N) a e.2 f else some a) fun _ => (0 : ℝ)
    let means := toList (2 * N) means
    if propagate then sczList L.adj means else pure means

/-- `noise_q` and `noise_p`, noise/cv.py:282-283. -/
def noiseQ (delta : ℝ) : List (String × ℝ) := [("p", 1 / √(2 * delta)), ("GKP", √(delta / 2))]
def noiseP (delta : ℝ) : List (String × ℝ) := [("p", √(delta / 2)), ("GKP", √(delta / 2))]

/-- The loop at noise/cv.py:284-289 for one state. -/
def covStep (L : Layer P) (a : ℕ → ℝ) (e : String × List ℕ) : Option (ℕ → ℝ) := do
  let N := L.pts.length
  let indices := e.2.filter fun i => decide (i ∉ L.perfect)
  if 0 < indices.length then
    let nq ← PyDict.get? (noiseQ L.delta) e.1
    let a ← assign (2 * N) a indices fun _ => nq
    let np ← PyDict.get? (noiseP L.delta) e.1
    assign (2 * N) a (indices.map fun i => i + N) fun _ => np
  else pure a

/-- `_covs_sampler`, noise/cv.py:277-304.  In the initial order `delta` must be positive (`1 / 0.0` is a
ZeroDivisionError, the root of a negative float is complex).  In the two-step order the perfect
indices are looked up with `(inds == i).nonzero()`, which fails unless `inds` is an array. -/
def covsSampler (L : Layer P) (inds : List ℕ) (isArray : Bool) : Option (List ℝ) :=
  match L.order with
  | .initial =>
    if 0 < L.delta then (L.states.foldlM (covStep L) fun _ => (0 : ℝ)).map (toList (2 * L.pts.length)) else none
  | .twoStep =>
    if L.delta < 0 then none
    else
      let covs := inds.map fun _ => √(L.delta / 2)
      let inds0 := inds.dedup.filter fun i => decide (i ∈ L.perfect)
      if inds0 ≠ [] ∧ isArray = false then none
      else some (inds0.foldl (fun c i => c.set (inds.idxOf i) 0) covs)

/-- NumPy broadcasting of two one-dimensional arrays to a common length. -/
def broadcast (a b : List ℝ) : Option (List (ℝ × ℝ)) :=
  if a.length = b.length then some (a.zip b)
  else if a.length = 1 then some (b.map fun x => (a.headD 0, x))
  else if b.length = 1 then some (a.map fun x => (x, b.headD 0))
  else none

/-- `rng.normal(means, covs)`: negative deviations are a ValueError. -/
def normal (means covs : List ℝ) (z : ℕ → ℝ) : Option (List ℝ) := do
  let mc ← broadcast means covs
  if ∃ c ∈ covs, c < 0 then none
  else pure (mc.zipIdx.map fun e => e.1.1 + e.1.2 * z e.2)

/-- The half of a vector of quadratures: `a[:N]` or `a[N:]`. -/
def half (N : ℕ) (quad : Quad) (a : List ℝ) : List ℝ :=
  match quad with
  | .q => a.take N
  | .p => a.drop N

/-- Write a homodyne outcome on a node. -/
def setHom (quad : Quad) (a : Attrs P) (p : P) (x : ℝ) : Attrs P :=
  match quad with
  | .q => { a with homQ := Function.update a.homQ p (some x) }
  | .p => { a with homP := Function.update a.homP p (some x) }

/-- One pass of the loop at noise/cv.py:216-217. -/
def recordOne (quad : Quad) (outcomes : List ℝ) (L : Layer P) (e : ℕ × ℕ) : Option (Layer P) := do
  let p ← L.pts[e.1]?
  let x ← outcomes[e.2]?
  pure { L with attrs := setHom quad L.attrs p x }

/-- noise/cv.py:208-213: in the initial order the samples are entangled now. -/
def entangleOutcomes (L : Layer P) (quad : Quad) (inds : List ℕ) (outcomes : List ℝ) : Option (List ℝ) :=
  match L.order with
  | .initial => (sczList L.adj outcomes).bind fun o => CvOps.index (half L.pts.length quad o) inds
  | .twoStep => some outcomes

/-- `measure_hom`, noise/cv.py:161-217; `inds = none` is the default `range(N)`, which is not an array. -/
def measureHom (L : Layer P) (quad : Quad) (inds : Option (List ℕ)) (isArray : Bool)
    (updatedMeans updatedCovs : Option (List ℝ)) (propagate : Bool) (r : Rnd) : Option (Layer P) := do
  let N := L.pts.length
  let isArray := isArray && inds.isSome
  let inds := inds.getD (List.range N)
  let means ← updatedMeans.elim (meansSampler L propagate r) fun m => CvOps.index (half N quad m) inds
  let covs ← updatedCovs.elim (covsSampler L inds isArray) fun c => CvOps.index (half N quad c) inds
  let outcomes ← normal means covs r.z
  let outcomes ← entangleOutcomes L quad inds outcomes
  inds.zipIdx.foldlM (recordOne quad outcomes) L

/-- Write a bit value on a node. -/
def setBit (L : Layer P) (p : P) (b : ℤ) : Layer P :=
  { L with attrs := { L.attrs with bit := Function.update L.attrs.bit p (some b) } }

/-- `inner_decoder`, noise/cv.py:147-159, with the standard translator; `coords` is
`code.all_syndrome_coords`. -/
def innerDecoder (L : Layer P) (coords : List P) : Option (Layer P) :=
  coords.foldlM (fun L p => (L.attrs.homP p).map fun x => setBit L p (Gkp.gkpBinner x)) L

/-- `measure_syndrome`, noise/cv.py:142-145; `inds` is `code.all_syndrome_inds`, a list. -/
def measureSyndrome (L : Layer P) (inds : List ℕ) (r : Rnd) : Option (Layer P) :=
  measureHom L .p (some inds) false none none true r

/-- `apply_noise`, noise/cv.py:108-119. -/
def applyNoise (L : Layer P) (inds : List ℕ) (coords : List P) (draw : List ℕ) (r : Rnd) : Option (Layer P) := do
  let L ← populate L draw
  let L ← measureSyndrome L inds r
  innerDecoder L coords

/-! ### Layers on a `SurfaceCode` -/

/-- `CVLayer(code, ...)`, noise/cv.py:70-105: `pts` is the list of nodes in index order
(`index_generator`), a surface code has no perfect points, `_adj` holds the edge weights. -/
def codeLayer (code : SurfaceCode.Code) (pts : List SurfaceCode.V) (delta : ℝ) (pSwap : Option ℝ) (order : Order)
    (supplied : Option (List (String × List ℕ))) : Option (Layer SurfaceCode.V) :=
  (initStates pSwap supplied).map fun states =>
    { pts
      adj := fun i j =>
        ((((PyDict.get? code.graph.edges s(pts[i.val], pts[j.val])).map (·.1)).getD 0 : ℤ) : ℝ)
      delta, pSwap, order
      perfect := []
      states
      attrs := ⟨fun _ => none, fun _ => none, fun _ => none, fun _ => none⟩ }

/-- `code.all_syndrome_inds`, codes/surface_code.py:423-427: the indices of all points of all stabilizers,
with repetitions. -/
def syndromeInds (code : SurfaceCode.Code) (pts : List SurfaceCode.V) : List ℕ :=
  code.allCoords.map fun p => pts.idxOf p

end

end Flamingpy.Noise
