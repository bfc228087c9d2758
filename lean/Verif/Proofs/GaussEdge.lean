import Verif.Proofs.GkpLaw
import Mathlib.Probability.Distributions.Gaussian.Real
import Mathlib.Probability.Moments.Variance

/-!
# A wide normal variable is rarely close to the edges of the bins
-/

namespace Flamingpy.Gkp

open MeasureTheory ProbabilityTheory

/-- Values `z` for which `s z` is closer than `η` to an edge between two bins. -/
def nearEdge (s η : ℝ) : Set ℝ := {z | ∀ m : ℤ, √Real.pi / 2 - η < |s * z - m * √Real.pi|}

theorem measurable_nearEdge (s η : ℝ) : MeasurableSet (nearEdge s η) := by
  unfold nearEdge
  rw [show {z : ℝ | ∀ m : ℤ, √Real.pi / 2 - η < |s * z - m * √Real.pi|} = ⋂ m : ℤ, {z | √Real.pi / 2 - η < |s * z - m * √Real.pi|} by
    ext z; simp]
  exact MeasurableSet.iInter fun m => measurableSet_lt measurable_const (by fun_prop)

theorem gauss_shift {S : Set ℝ} (hS : MeasurableSet S) {R c : ℝ} (hc : 0 ≤ c) (hR : ∀ z ∈ S, z < R) :
    (gaussianReal 0 1).real S ≤ Real.exp (R * c + c ^ 2 / 2) * (gaussianReal 0 1).real {z | z - c ∈ S} := by
  have h1 : (gaussianReal 0 1) {z | z - c ∈ S} = gaussianReal (-c) 1 S := by
    have := gaussianReal_map_sub_const (μ := 0) (v := 1) c
    rw [zero_sub] at this
    rw [← this, Measure.map_apply (by fun_prop) hS]
    rfl
  have h2 : (gaussianReal 0 1) S ≤ ENNReal.ofReal (Real.exp (R * c + c ^ 2 / 2)) * gaussianReal (-c) 1 S := by
    rw [gaussianReal_apply _ one_ne_zero, gaussianReal_apply _ one_ne_zero, ← lintegral_const_mul _ (measurable_gaussianPDF _ _)]
    refine setLIntegral_mono ((measurable_gaussianPDF _ _).const_mul _) fun z hz => ?_
    unfold gaussianPDF
    rw [← ENNReal.ofReal_mul (Real.exp_pos _).le]
    refine ENNReal.ofReal_le_ofReal ?_
    unfold gaussianPDFReal
    rw [mul_left_comm, ← Real.exp_add]
    refine mul_le_mul_of_nonneg_left (Real.exp_le_exp.2 ?_) (by positivity)
    have := mul_le_mul_of_nonneg_right (hR z hz).le hc
    simp only [NNReal.coe_one]
    nlinarith
  unfold Measure.real
  rw [h1, ← ENNReal.toReal_ofReal (Real.exp_pos (R * c + c ^ 2 / 2)).le, ← ENNReal.toReal_mul]
  exact ENNReal.toReal_mono (ENNReal.mul_ne_top ENNReal.ofReal_ne_top (measure_ne_top _ _)) h2

theorem nearEdge_disjoint {s η : ℝ} {K : ℕ} (hη : 0 < η) (hs : 0 < s) (hK : K * (2 * η) ≤ √Real.pi) {j k : ℕ} (hk : k < j) (hj : j < K)
    {z : ℝ} (h1 : z - 2 * η * k / s ∈ nearEdge s η) (h2 : z - 2 * η * j / s ∈ nearEdge s η) : False := by
  have hp : 0 < √Real.pi := Real.sqrt_pos.2 Real.pi_pos
  have key : ∀ y : ℝ, y ∈ nearEdge s η → ∃ (m : ℤ) (f : ℝ), s * y = m * √Real.pi + √Real.pi / 2 + f ∧ |f| < η := by
    intro y hy
    have hlo := Int.floor_le (s * y / √Real.pi)
    have hhi := Int.lt_floor_add_one (s * y / √Real.pi)
    set m := ⌊s * y / √Real.pi⌋ with hm
    rw [le_div_iff₀ hp] at hlo
    rw [div_lt_iff₀ hp] at hhi
    refine ⟨m, s * y - m * √Real.pi - √Real.pi / 2, by ring, ?_⟩
    have e1 := hy m
    have e2 := hy (m + 1)
    rw [abs_of_nonneg (by linarith)] at e1
    rw [abs_of_nonpos (by push_cast; linarith)] at e2
    push_cast at e2
    rw [abs_lt]
    constructor <;> linarith
  obtain ⟨m, f, e1, hf⟩ := key _ h1
  obtain ⟨m', f', e2, hf'⟩ := key _ h2
  rw [mul_sub, mul_div_cancel₀ _ hs.ne'] at e1 e2
  rw [abs_lt] at hf hf'
  have hjk : (k : ℝ) + 1 ≤ j := by exact_mod_cast hk
  have hjK : (j : ℝ) + 1 ≤ K := by exact_mod_cast hj
  have hk0 : (0 : ℝ) ≤ k := Nat.cast_nonneg k
  have e3 : ((m - m' : ℤ) : ℝ) * √Real.pi = 2 * η * (j - k) - (f - f') := by push_cast; linarith
  have e4 : 0 < ((m - m' : ℤ) : ℝ) * √Real.pi := by rw [e3]; nlinarith
  have e5 : ((m - m' : ℤ) : ℝ) * √Real.pi < 1 * √Real.pi := by rw [e3]; nlinarith
  have e6 : (0 : ℝ) < ((m - m' : ℤ) : ℝ) := pos_of_mul_pos_left e4 hp.le
  have e7 : ((m - m' : ℤ) : ℝ) < 1 := lt_of_mul_lt_mul_right e5 hp.le
  have e8 : (0 : ℤ) < m - m' := by exact_mod_cast e6
  have e9 : m - m' < (1 : ℤ) := by exact_mod_cast e7
  omega

/-- The probability of being close to an edge. -/
theorem nearEdge_prob {s η R : ℝ} {K : ℕ} (hη : 0 < η) (hs : 0 < s) (hR : 0 ≤ R) (hK : K * (2 * η) ≤ √Real.pi) :
    K * (gaussianReal 0 1).real (nearEdge s η ∩ {z | |z| < R}) ≤ Real.exp (R * (√Real.pi / s) + (√Real.pi / s) ^ 2 / 2) := by
  set S := nearEdge s η ∩ {z | |z| < R} with hS
  have hSm : MeasurableSet S := (measurable_nearEdge s η).inter (measurableSet_lt (by fun_prop) measurable_const)
  have h1 : ∀ k ∈ Finset.range K, (gaussianReal 0 1).real S ≤ Real.exp (R * (√Real.pi / s) + (√Real.pi / s) ^ 2 / 2) *
      (gaussianReal 0 1).real {z | z - 2 * η * k / s ∈ S} := by
    intro k hk
    have hkK : (k : ℝ) ≤ K := by exact_mod_cast (Finset.mem_range.1 hk).le
    have hc0 : 0 ≤ 2 * η * k / s := by positivity
    have hc : 2 * η * k / s ≤ √Real.pi / s := div_le_div_of_nonneg_right (by nlinarith) hs.le
    refine (gauss_shift hSm hc0 (R := R) fun z hz => (abs_lt.1 hz.2).2).trans ?_
    refine mul_le_mul_of_nonneg_right (Real.exp_le_exp.2 ?_) measureReal_nonneg
    have := mul_le_mul_of_nonneg_left hc hR
    have := pow_le_pow_left₀ hc0 hc 2
    linarith
  have h2 : ∑ k ∈ Finset.range K, (gaussianReal 0 1).real {z | z - 2 * η * k / s ∈ S} ≤ 1 := by
    rw [← measureReal_biUnion_finset]
    · exact measureReal_le_one
    · intro j hj k hk hne
      rw [Function.onFun, Set.disjoint_left]
      intro z h1 h2
      rcases Nat.lt_or_gt_of_ne hne with hlt | hlt
      · exact nearEdge_disjoint hη hs hK hlt (by simpa using hk) h1.1 h2.1
      · exact nearEdge_disjoint hη hs hK hlt (by simpa using hj) h2.1 h1.1
    · intro k _
      exact (measurable_id.sub_const _) hSm
  have h3 := Finset.sum_le_sum h1
  rw [Finset.sum_const, Finset.card_range, nsmul_eq_mul, ← Finset.mul_sum] at h3
  exact h3.trans (mul_le_of_le_one_right (Real.exp_pos _).le h2)

/-- Chebyshev's inequality. -/
theorem gauss_tail {R : ℝ} (hR : 0 < R) : (gaussianReal 0 1).real {z | R ≤ |z|} ≤ 1 / R ^ 2 := by
  have := meas_ge_le_variance_div_sq (μ := gaussianReal 0 1) (X := id) (memLp_id_gaussianReal 2) hR
  rw [variance_id_gaussianReal] at this
  have he : (gaussianReal 0 1)[id] = 0 := by simp
  rw [he] at this
  simp only [id, sub_zero, NNReal.coe_one] at this
  unfold Measure.real
  rw [← ENNReal.toReal_ofReal (by positivity : 0 ≤ 1 / R ^ 2)]
  exact ENNReal.toReal_mono ENNReal.ofReal_ne_top this

end Flamingpy.Gkp
