import Mathlib.Probability.Distributions.Gaussian.Real
import Mathlib.Probability.Independence.InfinitePi
import Mathlib.Probability.Independence.Basic

/-! # Independent standard normal numbers -/

namespace Flamingpy.Noise

open MeasureTheory ProbabilityTheory
open scoped NNReal

variable {Ω : Type*} [MeasurableSpace Ω] {μ : Measure Ω} {J : Type*} {Z : J → Ω → ℝ}

/-- The numbers `Z j` are independent and standard normal. -/
structure NormalIid (Z : J → Ω → ℝ) (μ : Measure Ω) : Prop where
  meas : ∀ j, Measurable (Z j)
  indep : iIndepFun Z μ
  normal : ∀ j, μ.map (Z j) = gaussianReal 0 1

theorem NormalIid.comp {K : Type*} (hZ : NormalIid Z μ) {g : K → J} (hg : Function.Injective g) :
    NormalIid (fun k => Z (g k)) μ :=
  ⟨fun k => hZ.meas _, hZ.indep.precomp hg, fun k => hZ.normal _⟩

theorem NormalIid.smul (hZ : NormalIid Z μ) (c : ℝ) (j : J) :
    μ.map (fun ω => c * Z j ω) = gaussianReal 0 (c ^ 2).toNNReal := by
  have : (fun ω => c * Z j ω) = (fun x => c * x) ∘ Z j := rfl
  rw [this, ← Measure.map_map (by fun_prop) (hZ.meas j), hZ.normal, gaussianReal_map_const_mul, mul_zero, mul_one]
  congr 1
  ext
  rw [Real.coe_toNNReal _ (sq_nonneg c)]
  rfl

/-- A linear combination is normal, its variance is the sum of the squares of the coefficients. -/
theorem NormalIid.sum (hZ : NormalIid Z μ) (s : Finset J) (a : J → ℝ) :
    μ.map (fun ω => ∑ j ∈ s, a j * Z j ω) = gaussianReal 0 (∑ j ∈ s, a j ^ 2).toNNReal := by
  classical
  have hprob : IsProbabilityMeasure μ := hZ.indep.isProbabilityMeasure
  induction s using Finset.induction_on with
  | empty =>
    simp only [Finset.sum_empty, Real.toNNReal_zero, gaussianReal_zero_var]
    rw [Measure.map_const, measure_univ, one_smul]
  | insert j s hj ih =>
    have hind : iIndepFun (fun j ω => a j * Z j ω) μ := hZ.indep.comp (fun j x => a j * x) fun j => by fun_prop
    have h2 := hind.indepFun_finsetSum_of_notMem (fun j => (hZ.meas j).const_mul (a j)) hj
    have h3 : (fun ω => ∑ i ∈ insert j s, a i * Z i ω) = (fun ω => ∑ i ∈ s, a i * Z i ω) + fun ω => a j * Z j ω := by
      funext ω
      rw [Finset.sum_insert hj, Pi.add_apply, add_comm]
    have h4 : (∑ i ∈ s, fun ω => a i * Z i ω) = fun ω => ∑ i ∈ s, a i * Z i ω := by
      funext ω
      rw [Finset.sum_apply]
    rw [h4] at h2
    rw [h3, gaussianReal_add_gaussianReal_of_indepFun h2 ih (hZ.smul (a j) j), add_zero, Finset.sum_insert hj, add_comm,
      ← Real.toNNReal_add (sq_nonneg _) (Finset.sum_nonneg fun _ _ => sq_nonneg _)]

theorem normalIid_exists (J : Type) : ∃ (Ω : Type) (_ : MeasurableSpace Ω) (μ : Measure Ω) (_ : IsProbabilityMeasure μ)
    (Z : J → Ω → ℝ), NormalIid Z μ := by
  refine ⟨J → ℝ, inferInstance, Measure.infinitePi fun _ => gaussianReal 0 1, inferInstance, fun j ω => ω j,
    fun j => measurable_pi_apply j, ?_, fun j => ?_⟩
  · exact iIndepFun_infinitePi (X := fun _ x => x) fun _ => measurable_id
  · exact Measure.infinitePi_map_eval _ j

end Flamingpy.Noise
