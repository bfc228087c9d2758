import Verif.Model.DrawRecovery
import Verif.Spec.Rhg

/-!
# Specification of what a drawing shows
-/

namespace Flamingpy.Viz

open Flamingpy Flamingpy.SurfaceCode

/-- The points of a line given by three lists of coordinates. -/
def points (l : List ℚ × List ℚ × List ℚ) : List (Fin 3 → ℚ) := (l.1.zip (l.2.1.zip l.2.2)).map fun t => ![t.1, t.2.1, t.2.2]

/-- The straight pieces of a line through the given points. -/
def segs {α : Type} (l : List α) : List (α × α) := l.zip l.tail

/-- The qubit `x` is the point `a`, or lies on a face of the voxel around the point `a` (across the boundary for a periodic axis). -/
def Touches (code : Code) (x : V) (a : Fin 3 → ℚ) : Prop :=
  (a = fun i => (x i : ℚ)) ∨ ∃ c : V, (a = fun i => (c i : ℚ)) ∧ adjacent code.dims (boundsOf code.ec code.boundaries) x c

/-- The qubit `x` lies on the straight piece from `a` to `b`: it touches both ends, and for an open code it is one of them or the middle. -/
def OnPiece (code : Code) (x : V) (a b : Fin 3 → ℚ) : Prop :=
  Touches code x a ∧ Touches code x b ∧
    (code.boundaries = .open → (a = fun i => (x i : ℚ)) ∨ (b = fun i => (x i : ℚ)) ∨ ∀ i, (x i : ℚ) = (a i + b i) / 2)

/-- Where a node of the matching graph is: the middle of a stabilizer, or the boundary point of a virtual node. -/
def endPos (code : Code) : MNode → Option (Fin 3 → ℚ)
  | .stab k => midpoint ((physical code).getD k [])
  | .virt (.pt p) _ => some fun i => (p i : ℚ)
  | .virt _ _ => none

/-- The line goes from the place of one node to that of the other. -/
def Joins (code : Code) (m : MNode × MNode) (l : List (Fin 3 → ℚ)) : Prop :=
  l ≠ [] ∧ ((l.head? = endPos code m.1 ∧ l.getLast? = endPos code m.2) ∨ (l.head? = endPos code m.2 ∧ l.getLast? = endPos code m.1))

/-- The pieces of a line with gaps (`None` in the three lists): neighbouring points that are both there. -/
def gapSegs : List (Option ℚ × Option ℚ × Option ℚ) → List ((Fin 3 → ℚ) × (Fin 3 → ℚ))
  | (some a, some b, some c) :: (some a', some b', some c') :: l => (![a, b, c], ![a', b', c']) :: gapSegs ((some a', some b', some c') :: l)
  | _ :: l => gapSegs l
  | [] => []

/-- The coordinate with the given name. -/
def coordNamed (n : Fin 3 → ℚ) (name : String) : Option ℚ :=
  if name = "x" then some (n 0) else if name = "y" then some (n 1) else if name = "z" then some (n 2) else none

end Flamingpy.Viz
