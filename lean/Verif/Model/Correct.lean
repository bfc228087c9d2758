import Verif.Model.Mwpm
import Verif.Model.UnionFind
import Verif.Model.Weights
import Verif.Model.MacroCode
import Verif.Model.Simulations

/-!
# Model of `correct` as a whole, `flamingpy/decoders/decoder.py:227-288`, and of `ec_mc_trial`,
`flamingpy/simulations.py:46-59`
-/

namespace Flamingpy.Trial

open Flamingpy Flamingpy.SurfaceCode Flamingpy.UnionFind

/-- The number that Python stores for a real result.  Weights are Python integers, which are exact, or
floats; rounding keeps non-negative numbers non-negative.  Nothing else is assumed about it. -/
structure FloatLib where
  fl : ℝ → ℚ
  nonneg : ∀ x, 0 ≤ x → 0 ≤ fl x
  int : ∀ n : ℤ, fl n = n

/-- The routines and choices outside the package: graph library, `set.pop`, shortest paths, matching, connected
components, spanning forests, iteration order of sets, floats. -/
structure Libs where
  bk : Backend
  sp : SetPop
  paths : PathLib
  matching : MatchLib
  comps : CompLib SNode
  span : SpanLib SNode (Option V)
  iter : IterOrder SNode
  float : FloatLib

/-- `decoder_dict[decoder]`, decoders/decoder.py:277-278, on the stabilizer graph of the code with node weights `w`; another
name is a KeyError.  The number of rounds of Union-Find is bounded by a number that is always enough (C38). -/
def decoderFunc (X : Libs) (code : Code) (name : String) (w : V → ℚ) (bits : V → Bool) : Option (List (Option V)) :=
  let SG := stabGraph X.bk X.sp code
  if name = "MWPM" then mwpmDecoder X.bk X.paths X.matching SG w bits
  else if name = "UF" then ufDecoder X.comps X.span X.iter (2 * SG.edges.length + 1) SG w bits
  else none

noncomputable section

open Classical in
/-- `correct`, decoders/decoder.py:227-288: weights, decoder, recovery and check.  `weights` are the `weight` attributes before the
call; the result holds bits and weights after the call, and the verdict.  With an unknown weight method and no weights from
an earlier call the weights are `None`; what the libraries do with these is not modelled (`none`). -/
def correctAll (X : Libs) (code : Code) (name : String) (o : Weights.Opts) (a : Weights.Attrs) (weights : V → Option ℝ)
    (sanity : Bool) (bits : V → Bool) : Option ((V → Bool) × (V → Option ℝ) × Bool) := do
  let w ← (Weights.assignNodes code name o a weights).toOption
  if ∀ q ∈ code.syndrome, (w q).isSome then do
    let r ← correct code (decoderFunc X code name fun q => X.float.fl ((w q).getD 0)) sanity bits
    pure (r.1, w, r.2)
  else none

/-- A noise layer on a code, with its random numbers: what `apply_noise` does to its state, and how `correct` sees the state
and changes its bits. -/
structure NoiseModel (S : Type) where
  apply : S → Option S
  bits : S → V → Bool
  attrs : S → Weights.Attrs
  put : (V → Bool) → S → S

/-- `ec_mc_trial`, simulations.py:46-59, on the state of the noise layer and the `weight` attributes. -/
def ecTrial {S : Type} (X : Libs) (code : Code) (name : String) (o : Weights.Opts) (N : NoiseModel S)
    (s : S × (V → Option ℝ)) : Option (Bool × (S × (V → Option ℝ))) := do
  let s1 ← N.apply s.1
  let r ← correctAll X code name o (N.attrs s1) s.2 false (N.bits s1)
  pure (r.2.2, N.put r.1 s1, r.2.1)

/-- The bits after the recovery: `^= 1` keeps missing attributes missing. -/
def putBits {P : Type} (b : P → Bool) (old : P → Option ℤ) : P → Option ℤ :=
  fun x => (old x).map fun _ => if b x then 1 else 0

/-- `IidNoise(code, p)`, noise/iid.py:19-47; the state holds the node attributes and the values that `rng.random()` is going to
return. -/
def iidModel (code : Code) (p : ℝ) : NoiseModel (Noise.Attrs V × (ℕ → ℝ)) where
  apply s := some (Noise.iidApply p s.2 (PyDict.keys code.graph.nodes) s.1,
    fun i => s.2 ((PyDict.keys code.graph.nodes).length + i))
  bits s x := decide (s.1.bit x = some 1)
  attrs s := ⟨s.1.state, s.1.homP, fun _ => none⟩
  put b s := ({ s.1 with bit := putBits b s.1.bit }, s.2)

/-- `CVLayer(code, ...)`, noise/cv.py:27-349; the second part of the state are the random choices of the next calls of
`apply_noise`. -/
def cvModel (code : Code) (pts : List V) : NoiseModel (Noise.Layer V × (ℕ → List ℕ × Noise.Rnd)) where
  apply s := (Noise.applyNoise s.1 (Noise.syndromeInds code pts) code.syndrome (s.2 0).1 (s.2 0).2).map
    fun L => (L, fun i => s.2 (i + 1))
  bits s x := decide (s.1.attrs.bit x = some 1)
  attrs s := ⟨s.1.attrs.state, s.1.attrs.homP, fun _ => none⟩
  put b s := ({ s.1 with attrs := { s.1.attrs with bit := putBits b s.1.attrs.bit } }, s.2)

/-- `CVMacroLayer(code, ...)`, noise/cv.py:352-625; the decoder sees the attributes of the reduced graph, which is the code's. -/
def macroModel : NoiseModel (Noise.Macro EGraph.Pt × (ℕ → Noise.MacroRnd)) where
  apply s := (Noise.macroApply s.1 (s.2 0)).map fun M => (M, fun i => s.2 (i + 1))
  bits s x := decide (s.1.redBit (Noise.toPt x) = some 1)
  attrs s := ⟨fun x => s.1.redState (Noise.toPt x), fun _ => none, fun x => s.1.redProb (Noise.toPt x)⟩
  put b s :=
    ({ s.1 with redBit := putBits (fun p : EGraph.Pt => b ![⌊p.1⌋, ⌊p.2.1⌋, ⌊p.2.2⌋]) s.1.redBit }, s.2)

end

end Flamingpy.Trial
