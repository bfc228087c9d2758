import Verif.Proofs.GaussSum
import Mathlib.Probability.Moments.Basic
import Mathlib.Analysis.SpecialFunctions.Gaussian.GaussianIntegral

/-!
# A tail bound for sums of squares of independent normal numbers
-/

namespace Flamingpy.Noise

open MeasureTheory ProbabilityTheory

variable {Ω : Type*} [MeasurableSpace Ω] {μ : Measure Ω} {J : Type*} {Z : J → Ω → ℝ}

theorem gauss_sq_mgf : Integrable (fun x : ℝ => Real.exp (1 / 4 * x ^ 2)) (gaussianReal 0 1) ∧
    ∫ x, Real.exp (1 / 4 * x ^ 2) ∂gaussianReal 0 1 = √2 := by
  have hi : ∫ x, Real.exp (1 / 4 * x ^ 2) ∂gaussianReal 0 1 = √2 := by
    rw [integral_gaussianReal_eq_integral_smul (one_ne_zero)]
    have : ∀ x : ℝ, gaussianPDFReal 0 1 x • Real.exp (1 / 4 * x ^ 2) = (√(2 * Real.pi))⁻¹ * Real.exp (-(1 / 4) * x ^ 2) := by
      intro x
      rw [gaussianPDFReal, smul_eq_mul, mul_assoc, ← Real.exp_add]
      congr 1
      · simp
      · congr 1
        simp
        ring
    simp_rw [this]
    rw [integral_const_mul, integral_gaussian]
    rw [show Real.pi / (1 / 4) = (2 * Real.pi) * 2 by ring, Real.sqrt_mul (x := 2 * Real.pi) (by positivity)]
    rw [← mul_assoc, inv_mul_cancel₀ (by positivity), one_mul]
  refine ⟨?_, hi⟩
  by_contra hc
  rw [integral_undef hc] at hi
  have : (0 : ℝ) < √2 := by positivity
  linarith

theorem NormalIid.sq_tail (hZ : NormalIid Z μ) (I : Finset J) (T : ℝ) :
    μ.real {ω | T ≤ ∑ i ∈ I, Z i ω ^ 2} ≤ Real.exp (-T / 4) * √2 ^ I.card := by
  have : IsProbabilityMeasure μ := hZ.indep.isProbabilityMeasure
  have hind : iIndepFun (fun i ω => Z i ω ^ 2) μ := hZ.indep.comp (fun _ x => x ^ 2) fun _ => by fun_prop
  have hm : ∀ i, Measurable fun ω => Z i ω ^ 2 := fun i => (hZ.meas i).pow_const 2
  have hmap : ∀ i, mgf (fun ω => Z i ω ^ 2) μ (1 / 4) = √2 ∧ Integrable (fun ω => Real.exp (1 / 4 * Z i ω ^ 2)) μ := by
    intro i
    have hg : AEStronglyMeasurable (fun x : ℝ => Real.exp (1 / 4 * x ^ 2)) (μ.map (Z i)) := by fun_prop
    refine ⟨?_, ?_⟩
    · rw [mgf, ← gauss_sq_mgf.2, ← hZ.normal i, integral_map (hZ.meas i).aemeasurable hg]
    · have h := gauss_sq_mgf.1
      rw [← hZ.normal i] at h
      exact (integrable_map_measure hg (hZ.meas i).aemeasurable).1 h
  have hint := hind.integrable_exp_mul_sum hm (t := 1 / 4) (s := I) fun i _ => (hmap i).2
  have h1 := measure_ge_le_exp_mul_mgf T (by norm_num) hint
  rw [hind.mgf_sum hm, Finset.prod_congr rfl fun i _ => (hmap i).1, Finset.prod_const] at h1
  convert h1 using 2
  · congr 1
    ext ω
    simp
  · congr 1
    ring

end Flamingpy.Noise
