import Verif.Model.UnionFind
import Mathlib.Data.Set.Card

/-!
# Notions about the Union-Find decoder

A *real* edge is one that does not use the connectors "low" and "high" (`realE`).
-/

namespace Flamingpy.UnionFind

open Flamingpy SurfaceCode

/-- A simple graph: nodes and edges listed once, real edges join two different nodes of the list. -/
structure Wf (I : Input) : Prop where
  nodup : I.nodes.Nodup
  ends : ∀ e ∈ realE I.E, ∀ v ∈ e, v ∈ I.nodes
  noloop : ∀ e ∈ realE I.E, ¬ e.IsDiag
  keys : (PyDict.keys I.E).Nodup

/-- Edges with status "grown". -/
def grownL (st : List (Sym2 SNode × Status)) : List (Sym2 SNode) :=
  (PyDict.keys st).filter fun k => decide (PyDict.get? st k = some .grown)

/-- The odd stabilizers joined to a node by edges of `D`. -/
def oddComp (I : Input) (D : List (Sym2 SNode)) (v : SNode) : Set SNode :=
  {u | ∃ j, u = .stab j ∧ u ∈ I.nodes ∧ I.odd j = true ∧ Conn D v u}

/-- Every odd stabilizer is joined to a boundary point, or to an even number of odd stabilizers (including itself). -/
def CompOk (I : Input) : Prop := ∀ k, SNode.stab k ∈ I.nodes → I.odd k = true →
  (∃ p, Conn (realE I.E) (.stab k) (.pt p)) ∨ Even (oddComp I (realE I.E) (.stab k)).ncard

end Flamingpy.UnionFind
