import Verif.Model.Noise

/-!
# Model of `CVMacroLayer`, `flamingpy/noise/cv.py:352-625`

Floats are exact reals (the single-precision cast of the four-splitter is not modelled); random numbers are
inputs; `none` is any exception.  `P` is the type of micronodes and of macronodes.
-/

namespace Flamingpy.Noise

open Flamingpy

variable {P : Type} [DecidableEq P]

noncomputable section

/-- A `CVMacroLayer` with the default four-splitter (noise/cv.py:367-378): the `CVLayer` on the macronode graph,
the adjacency and `macro_to_micro` dictionaries of that graph, the rounding of coordinates, the nodes of the
reduced graph, and the attributes written by `apply_noise`.  (With an own `bs_network` the attribute is
never stored and `_entangle_states` fails.) -/
structure Macro (P : Type) where
  layer : Layer P
  /-- `list(macro_graph[v])` -/
  nbrs : P → List P
  /-- `macro_graph.macro_to_micro` -/
  dict : P → Option (List P)
  /-- `tuple(round(i) for i in point)` -/
  centre : P → P
  /-- the nodes of `reduced_graph` -/
  redNodes : List P
  /-- `permuted_inds` -/
  perm : List ℕ
  bodyIndex : P → Option ℕ
  redState : P → Option String
  redBit : P → Option ℤ
  redProb : P → Option ℝ

/-- Is the micronode with index `ind` a GKP state?  noise/cv.py:535; `none` is a KeyError. -/
def isGkp (L : Layer P) (ind : ℕ) : Option Bool := do
  let p ← L.pts[ind]?
  let s ← L.attrs.state p
  pure (s == "GKP")

/-- `_permute_gkp_inds_in_macronode`, noise/cv.py:533-536. -/
def permuteGroup (L : Layer P) (inds : List ℕ) : Option (List ℕ) := do
  let gkps ← inds.mapM (isGkp L)
  let z := inds.zip gkps
  pure (((z.filter fun e => e.2).map (·.1)) ++ ((z.filter fun e => !e.2).map (·.1)))

/-- The rows of `np.reshape(np.arange(N), (N // 4, 4))`, noise/cv.py:528. -/
def rows (N : ℕ) : List (List ℕ) := (List.range (N / 4)).map fun k => [4 * k, 4 * k + 1, 4 * k + 2, 4 * k + 3]

/-- `_permute_star_inds`, noise/cv.py:519-531.  The reshape fails unless 4 divides `N`; `apply_along_axis` fails
on an empty array. -/
def permuteStarInds (L : Layer P) : Option (List ℕ) :=
  let N := L.pts.length
  if N % 4 = 0 ∧ N ≠ 0 then ((rows N).mapM (permuteGroup L)).map List.flatten else none

/-- `a[::4]`. -/
def every4 {α : Type} (a : List α) : List α := (a.zipIdx.filter fun e => e.2 % 4 == 0).map (·.1)

/-- `np.delete(a, np.arange(0, N, 4))` for an array of length `N`. -/
def notEvery4 {α : Type} (a : List α) : List α := (a.zipIdx.filter fun e => e.2 % 4 != 0).map (·.1)

/-- noise/cv.py:418-419. -/
def labelBody (M : Macro P) (e : ℕ × ℕ) : Option (Macro P) := do
  let p ← M.layer.pts[e.1]?
  pure { M with bodyIndex := Function.update M.bodyIndex p (some (e.2 % 4 + 1)) }

/-- noise/cv.py:420-423; KeyError if the centre is not a node of the reduced graph. -/
def labelReduced (M : Macro P) (ind : ℕ) : Option (Macro P) := do
  let p ← M.layer.pts[ind]?
  let s ← M.layer.attrs.state p
  if M.centre p ∈ M.redNodes then pure { M with redState := Function.update M.redState (M.centre p) (some s) }
  else none

/-- `_apply_macro_and_reduced_labels`, noise/cv.py:408-424. -/
def applyMacroLabels (M : Macro P) : Option (Macro P) := do
  let M ← M.perm.zipIdx.foldlM labelBody M
  (every4 M.perm).foldlM labelReduced M

/-- `a[i:i+4] = S @ a[i:i+4]`, noise/cv.py:444-450, for an array given as a function. -/
def applyFour (S : Matrix (Fin 4) (Fin 4) ℝ) (i : ℕ) (a : ℕ → ℝ) : ℕ → ℝ := fun j =>
  if i ≤ j ∧ j < i + 4 then ∑ l : Fin 4, S (Fin.ofNat 4 (j - i)) l * a (i + l) else a j

/-- The loop at noise/cv.py:444-450 on the array `permuted_quads` of length `2N`. -/
def splitAll (N : ℕ) (quads : List ℝ) : List ℝ :=
  toList (2 * N) ((List.range (N / 4)).foldl (fun a k =>
    applyFour CvOps.bsNetwork.toBlocks₂₂ (N + 4 * k) (applyFour CvOps.bsNetwork.toBlocks₁₁ (4 * k) a))
    fun j => quads.getD j 0)

/-- `quad_permutation`, noise/cv.py:440. -/
def quadPerm (N : ℕ) (perm : List ℕ) : List ℕ := perm ++ perm.map fun i => N + i

/-- `_entangle_states`, noise/cv.py:425-452: the value of `permuted_quads`. -/
def entangleStates (M : Macro P) (r : Rnd) : Option (List ℝ) := do
  let N := M.layer.pts.length
  let quads ← meansSampler M.layer true r
  let permuted ← CvOps.index quads (quadPerm N M.perm)
  pure (splitAll N permuted)

/-- `_measure_syndrome`, noise/cv.py:478-496.  `empty` is the uninitialised buffer of `invert_permutation`; the
two homodyne measurements use their own random numbers. -/
def macroMeasure (M : Macro P) (permuted : List ℝ) (empty : List ℕ) (rp rq : Rnd) : Option (Macro P) := do
  let N := M.layer.pts.length
  let unpermuted ← CvOps.index permuted (CvOps.invertPermutation empty (quadPerm N M.perm))
  let L ← measureHom M.layer .p (some (every4 M.perm)) true (some unpermuted) none true rp
  let L ← measureHom L .q (some (notEvery4 M.perm)) true (some unpermuted) none true rq
  pure { M with layer := L }

/-- `_hom_outcomes`, noise/cv.py:454-476, as a function of the position 0, ..., 4. -/
def homOutcomes (M : Macro P) (vertex : Option P) : Option (ℕ → ℝ) :=
  match vertex with
  | none => some fun _ => 0
  | some v => (M.dict (M.centre v)).bind fun micros =>
      micros.foldlM (fun meas micro => do
        let index ← M.bodyIndex micro
        if index ≠ 1 then
          let x ← M.layer.attrs.homQ micro
          pure (Function.update meas index x)
        else pure meas) fun _ => (0 : ℝ)

/-- `_neighbor_of_micro_i_macro_j`, noise/cv.py:498-517, with `ind = permuted_inds[j + i - 1]`: the neighbour and
its body index.  The outer `none` is an exception. -/
def neighborOf (M : Macro P) (ind : ℕ) : Option (Option (P × ℕ)) := do
  let v ← M.layer.pts[ind]?
  match M.nbrs v with
  | [] => pure none
  | w :: _ => (M.bodyIndex w).map fun b => some (w, b)

/-- `_process_neighboring_outcomes`, noise/cv.py:538-555; `none` is the value `None`. -/
def processOutcomes (vals : ℕ → ℝ) (body : Option ℕ) : Option ℝ :=
  match body with
  | some 1 => some 0
  | some 2 => some (vals 2 - vals 4)
  | some 3 => some (vals 3 - vals 4)
  | some 4 => some (vals 2 + vals 3)
  | _ => none

/-- The running values of the loop at noise/cv.py:602-611. -/
structure Acc where
  pErr : ℝ
  numP : ℕ
  outcome : ℝ
  gkpZ : List ℝ

/-- One pass of that loop, on the state type of the neighbour and the processed outcome `Z_arr[i]`; arithmetic
with `None` is a TypeError. -/
def accStep (delta : ℝ) (a : Acc) (e : Option String × Option ℝ) : Option Acc :=
  if e.1 = some "p" then e.2.map fun Z => { a with numP := a.numP + 1, outcome := a.outcome - Z }
  else if e.1 = some "GKP" then e.2.map fun Z =>
    { a with
      pErr := if delta > 0 then a.pErr + Gkp.zErrCond (2 * delta) Z (useHomVal := true) else a.pErr
      gkpZ := a.gkpZ ++ [Z] }
  else some a

/-- noise/cv.py:611-614. -/
def finalProb (delta : ℝ) (a : Acc) : ℝ :=
  let p := if delta > 0 then a.pErr + Gkp.zErrCond (2 * (2 + a.numP) * delta) a.outcome (useHomVal := true) else a.pErr
  max (min p 0.5) 0

/-- noise/cv.py:616-619. -/
def finalBit (a : Acc) : ℤ := (Gkp.gkpBinner a.outcome + (a.gkpZ.map Gkp.gkpBinner).sum) % 2

/-- The state type of the neighbour and the processed outcome for one micronode. -/
def neighborData (M : Macro P) (ind : ℕ) : Option (Option String × Option ℝ) := do
  let nb ← neighborOf M ind
  let vals ← homOutcomes M (nb.map (·.1))
  let Z := processOutcomes vals (nb.map (·.2))
  match nb with
  | none => pure (none, Z)
  | some w => (M.layer.attrs.state w.1).map fun s => (some s, Z)

/-- `_reduce_jth_macronode`, noise/cv.py:557-626. -/
def reduceMacronode (M : Macro P) (j : ℕ) : Option (Macro P) := do
  let star ← M.perm[j]?
  let vertex ← M.layer.pts[star]?
  let inds ← CvOps.index M.perm [j, j + 1, j + 2, j + 3]
  let data ← inds.mapM (neighborData M)
  let starP ← M.layer.attrs.homP vertex
  let a ← data.foldlM (accStep M.layer.delta) ⟨0, 0, 2 * starP, []⟩
  if M.centre vertex ∈ M.redNodes then
    pure { M with
      redBit := Function.update M.redBit (M.centre vertex) (some (finalBit a))
      redProb := Function.update M.redProb (M.centre vertex) (some (finalProb M.layer.delta a)) }
  else none

/-- The random numbers of one `apply_noise`: choice of squeezed modes, means, the two measurements; and the
uninitialised buffer. -/
structure MacroRnd where
  draw : List ℕ
  means : Rnd
  p : Rnd
  q : Rnd
  empty : List ℕ

/-- `CVMacroLayer.apply_noise`, noise/cv.py:380-406. -/
def macroApply (M : Macro P) (r : MacroRnd) : Option (Macro P) := do
  let L ← populate M.layer r.draw
  let perm ← permuteStarInds L
  let M ← applyMacroLabels { M with layer := L, perm := perm }
  let permuted ← entangleStates M r.means
  let M ← macroMeasure M permuted r.empty r.p r.q
  ((List.range (M.layer.pts.length / 4)).map fun k => 4 * k).foldlM reduceMacronode M

end

end Flamingpy.Noise
