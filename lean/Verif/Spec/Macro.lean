import Verif.Model.Macro

/-!
# Well-formed macronode layers

What the constructor of `CVMacroLayer` provides (proved for surface codes in `Verif.Props.Macro`).
-/

namespace Flamingpy.Noise

open Flamingpy

variable {P : Type} [DecidableEq P]

/-- `cs` are the macronodes in order.  Micronodes `4k, ..., 4k+3` are the micronodes of macronode `k`; every
micronode has at most one neighbour; the weights of all edges are one or minus one. -/
structure MacroOk (M : Macro P) (cs : List P) : Prop where
  nodup : M.layer.pts.Nodup
  len : M.layer.pts.length = 4 * cs.length
  nonempty : cs ≠ []
  csNodup : cs.Nodup
  centre : ∀ i p, M.layer.pts[i]? = some p → cs[i / 4]? = some (M.centre p)
  dict : ∀ c ∈ cs, ∃ l, M.dict c = some l ∧ ∀ x, x ∈ l ↔ x ∈ M.layer.pts ∧ M.centre x = c
  red : ∀ c ∈ cs, c ∈ M.redNodes
  nbrs : ∀ x ∈ M.layer.pts, M.nbrs x = [] ∨ ∃ y ∈ M.layer.pts, M.nbrs x = [y]
  sym : ∀ x ∈ M.layer.pts, ∀ y ∈ M.nbrs x, x ∈ M.nbrs y
  adj0 : ∀ i j, M.layer.pts[j] ∉ M.nbrs M.layer.pts[i] → M.layer.adj i j = 0
  adj1 : ∀ i j, M.layer.pts[j] ∈ M.nbrs M.layer.pts[i] → M.layer.adj i j = 1 ∨ M.layer.adj i j = -1
  order : M.layer.order = .twoStep
  delta : 0 ≤ M.layer.delta

/-- No edge has a negative weight, or no mode is ever a momentum state. -/
def Macro.straight (M : Macro P) : Prop :=
  (∀ i j, 0 ≤ M.layer.adj i j) ∨ ((∀ x, M.layer.pSwap = some x → x = 0) ∧ M.layer.pInds = some [])

/-- The micronodes of a macronode. -/
def Macro.micros (M : Macro P) (c : P) : List P := M.layer.pts.filter fun x => decide (M.centre x = c)

/-- The macronodes joined to a macronode, one entry for every edge between them. -/
def Macro.around (M : Macro P) (c : P) : List P := ((M.micros c).flatMap M.nbrs).map M.centre

/-- A macronode contains a GKP state. -/
def Macro.hasGkp (M : Macro P) (c : P) : Prop := ∃ x ∈ M.micros c, M.layer.attrs.state x = some "GKP"

/-- The neighbours of the micronodes of a macronode, one entry for every edge. -/
def Macro.links (M : Macro P) (c : P) : List P := (M.micros c).flatMap M.nbrs

/-- The recorded position outcome of the micronode with body index `b` in the macronode `c`. -/
noncomputable def Macro.posOutcome (M : Macro P) (c : P) (b : ℕ) : ℝ :=
  (((M.micros c).find? fun x => decide (M.bodyIndex x = some b)).bind M.layer.attrs.homQ).getD 0

/-- What a neighbouring micronode `y` contributes: the combination of the recorded position outcomes of its
macronode that undoes the four-splitter (tracking paper, section III). -/
noncomputable def Macro.contribution (M : Macro P) (y : P) : ℝ :=
  let v := M.posOutcome (M.centre y)
  if M.bodyIndex y = some 2 then v 2 - v 4
  else if M.bodyIndex y = some 3 then v 3 - v 4
  else if M.bodyIndex y = some 4 then v 2 + v 3
  else 0

/-- The neighbours in momentum states, and those in GKP states. -/
def Macro.pLinks (M : Macro P) (c : P) : List P :=
  (M.links c).filter fun y => decide (M.layer.attrs.state y = some "p")
def Macro.gkpLinks (M : Macro P) (c : P) : List P :=
  (M.links c).filter fun y => decide (M.layer.attrs.state y = some "GKP")

/-- The outcome of a macronode: twice the recorded momentum outcome of its star (body index 1) minus what the neighbours
in momentum states contribute. -/
noncomputable def Macro.outcome (M : Macro P) (c : P) : ℝ :=
  2 * (((M.micros c).find? fun x => decide (M.bodyIndex x = some 1)).bind M.layer.attrs.homP).getD 0 -
    ((M.pLinks c).map M.contribution).sum

/-- The neighbours in GKP states that are not stars. -/
def Macro.gkpPlanets (M : Macro P) (c : P) : List P := (M.gkpLinks c).filter fun y => decide (M.bodyIndex y ≠ some 1)

/-- The random numbers of one `apply_noise` with given normal deviates: `Z (true, i)` displaces the `i`-th momentum outcome,
`Z (false, i)` the `i`-th position outcome. -/
def macroRnd (draw : List ℕ) (means : Rnd) (empty : List ℕ) (rp rq : Rnd) (Z : Bool × ℕ → ℝ) : MacroRnd :=
  ⟨draw, means, { rp with z := fun i => Z (true, i) }, { rq with z := fun i => Z (false, i) }, empty⟩

/-- Two layers with the same lattice, labels and body indices. -/
structure SameLabels (M N : Macro P) : Prop where
  pts : M.layer.pts = N.layer.pts
  nbrs : M.nbrs = N.nbrs
  centre : M.centre = N.centre
  state : ∀ y ∈ M.layer.pts, M.layer.attrs.state y = N.layer.attrs.state y
  body : ∀ y ∈ M.layer.pts, M.bodyIndex y = N.bodyIndex y

/-- The fractional parts of the outcome of a macronode and of what its GKP neighbours contribute. -/
noncomputable def Macro.fracs (M : Macro P) (c : P) : Option P → ℝ
  | none => (Gkp.gkpBinnerFrac (M.outcome c)).2
  | some y => if y ∈ M.gkpLinks c then (Gkp.gkpBinnerFrac (M.contribution y)).2 else 0

end Flamingpy.Noise
