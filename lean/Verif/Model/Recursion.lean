import Verif.Model.UnionFind

/-!
# Model of the peeling decoder with Python's recursion limit

`trim_forest` calls itself once for every edge of a stalk (decoders/unionfind/algos.py:286-287).  Model/UnionFind has no limit on nested calls; here a
call that would exceed the limit raises.
-/

namespace Flamingpy.UnionFind

open Flamingpy.SurfaceCode

variable {N Q : Type} [DecidableEq N] [DecidableEq Q]

/-- Python's RecursionError. -/
inductive RecErr where
  | recursionError
deriving DecidableEq

/-- `trim_forest`, decoders/unionfind/algos.py:254-287, where `limit` more nested calls (this one included) are possible before the interpreter raises
RecursionError.  Calls of compiled functions (rustworkx, dictionaries) are not counted. -/
def trimForestRec : ℕ → List (N × N × Q) → N → (N → Bool) → List Q → Except RecErr (List (N × N × Q) × (N → Bool) × List Q)
  | 0, _, _, _, _ => .error .recursionError
  | limit + 1, es, leaf, par, rec =>
    match es.find? fun e => decide (e.1 = leaf ∨ e.2.1 = leaf) with
    | none => .ok (es, par, rec)
    | some e =>
      let es' := es.erase e
      let newLeaf := if e.1 = leaf then e.2.1 else e.1
      let rec' := if par leaf then (if e.2.2 ∈ rec then rec else rec ++ [e.2.2]) else rec
      let par1 := if par leaf then Function.update par leaf false else par
      let par' := if par leaf then Function.update par1 newLeaf (!par1 newLeaf) else par1
      if degree es' newLeaf = 1 then trimForestRec limit es' newLeaf par' rec' else .ok (es', par', rec')

/-- `peeling`, decoders/unionfind/algos.py:290-311, from a place where `limit` nested calls are possible. -/
def peelingRec (limit : ℕ) (ns : List N) (es : List (N × N × Q)) (par : N → Bool) : Except RecErr (List (N × N × Q) × (N → Bool) × List Q) :=
  (ns.filter fun v => decide (degree es v = 1)).foldlM (fun st leaf => trimForestRec limit st.1 leaf st.2.1 st.2.2) (es, par, [])

/-- `uf_decoder`, decoders/unionfind/algos.py:314-334 (drawing omitted), where `limit` nested calls are possible in `peeling`. -/
def ufDecoderRec (cl : CompLib SNode) (sl : SpanLib SNode (Option V)) (io : IterOrder SNode) (fuel : ℕ) (limit : ℕ) (SG : StabGraph)
    (w : V → ℚ) (bits : V → Bool) : Option (Except RecErr (List (Option V))) := do
  let I := ufInput SG w bits
  let (s, odd) ← initState cl io I
  let s ← unionFind io I fuel 0 s odd
  let (ns, fs, par) ← spanningForest cl sl I SG.edges s.status
  pure ((peelingRec limit ns fs par).map fun r => r.2.2)

end Flamingpy.UnionFind
