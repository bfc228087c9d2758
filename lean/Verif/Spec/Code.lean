import Verif.Model.Decoder
import Verif.Spec.Rhg

/-!
# Notions about a `SurfaceCode`, independently of the implementation
-/

namespace Flamingpy.SurfaceCode

open Flamingpy

/-- A code returned by the constructor, for some sizes at least two. -/
def IsCode (code : Code) : Prop :=
  ∃ (o : SetOrder) (ec : Ec) (b : Boundaries) (dims : Fin 3 → ℕ) (pol : Option (V → V → ℤ)),
    (∀ i, 2 ≤ dims i) ∧ surfaceCode o ec b dims pol = some code

/-- No stabilizer is odd. -/
def trivialSyndrome (code : Code) (bits : V → Bool) : Prop := ∀ s ∈ code.stabs, parity bits s = false

/-- Nodes of the code graph joined to `q` by an edge. -/
def neighbors (code : Code) (q : V) : List V :=
  (PyDict.keys code.graph.nodes).filter fun x => decide (s(q, x) ∈ PyDict.keys code.graph.edges)

/-- Number of syndrome qubits carrying a 1. -/
def weight (code : Code) (bits : V → Bool) : ℕ := code.syndrome.countP bits

/-- The qubits of a plane perpendicular to an axis. -/
def planeQubits (code : Code) (i : Fin 3) (a : ℤ) : List V := code.syndrome.filter fun x => decide (x i = a)

/-- Coordinate of the `k`-th plane: 0, 2, 4, ... for primal and 1, 3, 5, ... for dual codes. -/
def planeCoord (code : Code) (k : ℕ) : ℤ :=
  match code.ec with
  | .primal => 2 * k
  | .dual => 2 * k + 1

end Flamingpy.SurfaceCode
