import Verif.Props.WeightHist
import Verif.Props.HalfNoise

/-!
# C103, continued: decoding with weights of an earlier call
-/

namespace Flamingpy.Trial

open Flamingpy Flamingpy.SurfaceCode Flamingpy.UnionFind Flamingpy.Weights

/-- **C103.** Decoding with an unknown method after decoding with valid options: no exception, and the result is that of the earlier options and the earlier
node attributes, whatever the attributes are now. -/
theorem C103_decode {code : Code} (h : IsCode code) (X : Libs) {name : String} {o o' : Opts} {a a' : Weights.Attrs} (hv : Valid code name o a)
    (ho' : o'.method ≠ "uniform" ∧ o'.method ≠ "blueprint") (weights : V → Option ℝ) (sanity₀ : Bool) (bits₀ : V → Bool)
    (sanity : Bool) (bits : V → Bool) :
    ∃ b₀ w v₀ b v, correctAll X code name o a weights sanity₀ bits₀ = some (b₀, w, v₀) ∧
      correctAll X code name o' a' w sanity bits = some (b, w, v) ∧
      correctAll X code name o a weights sanity bits = some (b, w, v) := by
  obtain ⟨w, hw, hs, -, -, -⟩ := weights_ok h hv weights
  have hw' : assignNodes code name o' a' w = .ok w := by
    unfold assignNodes
    rw [if_neg ho'.2, if_neg ho'.1]
  obtain ⟨F, w₁, -, hF⟩ := recovery_fun h X hv weights sanity₀
  obtain ⟨F', w₂, -, hF'⟩ := recovery_fun h X hv weights sanity
  have e1 := (hF bits₀).2
  have e2 := (hF' bits).2
  have hc : correctAll X code name o' a' w sanity bits = correctAll X code name o a weights sanity bits := by
    rw [correctAll_of hw hs, correctAll_of hw' hs]
  have hw1 : w₁ = w := by
    have := e1
    rw [correctAll_of hw hs, Option.map_eq_some_iff] at this
    obtain ⟨r, -, hr⟩ := this
    exact (Prod.mk.inj (Prod.mk.inj hr).2).1.symm
  have hw2 : w₂ = w := by
    have := e2
    rw [correctAll_of hw hs, Option.map_eq_some_iff] at this
    obtain ⟨r, -, hr⟩ := this
    exact (Prod.mk.inj (Prod.mk.inj hr).2).1.symm
  subst hw1
  rw [hw2] at e2
  exact ⟨_, _, _, _, _, e1, hc.trans e2, e2⟩

-- a misspelt method is one
example : ("Blueprint" : String) ≠ "uniform" ∧ ("Blueprint" : String) ≠ "blueprint" := by decide

end Flamingpy.Trial
