import Verif.Model.SurfaceCode
import Mathlib.Algebra.Group.Even
import Mathlib.Algebra.Group.Int.Even
import Mathlib.Data.Finset.Card

/-!
# The RHG lattice, independently of the code

Three axes; on each axis the lattice uses an interval of integers depending on its boundary type,
with the two ends joined for a periodic axis.
-/

namespace Flamingpy.SurfaceCode

/-- Integers used on an axis of size `d`. -/
def inAxis (bd : Bd) (d : ℕ) (a : ℤ) : Prop :=
  match bd with
  | .primal => 0 ≤ a ∧ a ≤ 2 * d - 2
  | .dual => 1 ≤ a ∧ a ≤ 2 * d - 1
  | .periodic => 0 ≤ a ∧ a ≤ 2 * d - 1

/-- Neighbouring integers on an axis. -/
def nextTo (bd : Bd) (d : ℕ) (a b : ℤ) : Prop :=
  a = b + 1 ∨ b = a + 1 ∨
    (bd = .periodic ∧ ((a = 0 ∧ b = 2 * d - 1) ∨ (a = 2 * d - 1 ∧ b = 0)))

/-- Number of even coordinates. -/
def evens (x : V) : ℕ := (Finset.univ.filter fun i => Even (x i)).card

/-- All coordinates are within the axes. -/
def inBox (dims : Fin 3 → ℕ) (bds : Fin 3 → Bd) (x : V) : Prop := ∀ i, inAxis (bds i) (dims i) (x i)

/-- Points of the RHG lattice: faces (one even coordinate, primal) and edges (two even
coordinates, dual) of the cubic lattice inside the box. -/
def isNode (dims : Fin 3 → ℕ) (bds : Fin 3 → Bd) (x : V) : Prop :=
  inBox dims bds x ∧ (evens x = 1 ∨ evens x = 2)

/-- The points differ in exactly one coordinate, by one step along its axis. -/
def adjacent (dims : Fin 3 → ℕ) (bds : Fin 3 → Bd) (x y : V) : Prop :=
  ∃ i, nextTo (bds i) (dims i) (x i) (y i) ∧ ∀ j, j ≠ i → x j = y j

/-- Open axes have size at least two, periodic ones at least one. -/
def goodDims (dims : Fin 3 → ℕ) (bds : Fin 3 → Bd) : Prop :=
  ∀ i, 1 ≤ dims i ∧ (bds i ≠ .periodic → 2 ≤ dims i)

/-- Edges of a graph at a vertex. -/
def edgesAt (G : RGraph) (x : V) : List (Sym2 V × (ℤ × Bool)) := G.edges.filter fun e => decide (x ∈ e.1)

end Flamingpy.SurfaceCode
