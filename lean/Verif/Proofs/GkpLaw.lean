import Verif.Proofs.Gkp
import Mathlib.Probability.Distributions.Gaussian.Real
import Mathlib.Algebra.Order.ToIntervalMod
import Mathlib.MeasureTheory.Function.Floor
import Mathlib.MeasureTheory.Constructions.Polish.Basic
import Mathlib.Topology.Algebra.InfiniteSum.NatInt
import Mathlib.Analysis.SpecificLimits.Normed

/-! Helper lemmas for `Props/GkpLaw`: integrals over the line bin by bin, sums of Gaussian weights. -/

namespace Flamingpy.Gkp

open MeasureTheory Filter Set ProbabilityTheory
open scoped ENNReal NNReal Topology

/-! ### The bins -/

theorem setLIntegral_shift (g : ℝ → ℝ≥0∞) (a b c : ℝ) :
    ∫⁻ x in Ioc (a + c) (b + c), g x = ∫⁻ x in Ioc a b, g (c + x) := by
  have h := (measurePreserving_add_left (volume : Measure ℝ) c).setLIntegral_comp_preimage_emb
    (measurableEmbedding_addLeft c) g (Ioc (a + c) (b + c))
  rw [← h]
  congr 2
  ext x
  simp only [mem_preimage, mem_Ioc]
  constructor <;> rintro ⟨h1, h2⟩ <;> constructor <;> linarith

/-- An integral over the line, bin by bin. -/
theorem lintegral_bins (g : ℝ → ℝ≥0∞) :
    ∫⁻ x, g x = ∑' n : ℤ, ∫⁻ f in Ioc (-(binWidth / 2)) (binWidth / 2), g (n * binWidth + f) := by
  have hu := iUnion_Ioc_add_zsmul binWidth_pos (-(binWidth / 2))
  have hd := pairwise_disjoint_Ioc_add_zsmul (-(binWidth / 2)) binWidth
  rw [← setLIntegral_univ, ← hu, lintegral_iUnion (fun n => measurableSet_Ioc) hd]
  congr 1
  funext n
  rw [← setLIntegral_shift]
  congr 3 <;> simp only [zsmul_eq_mul] <;> push_cast <;> ring

theorem intFrac_bin (n : ℤ) {f : ℝ} (hf : f ∈ Ioc (-(binWidth / 2)) (binWidth / 2)) :
    integerFractional (n * binWidth + f) binWidth = (n, f) :=
  integerFractional_unique binWidth_pos n f rfl hf.1 hf.2

theorem binner_bin (n : ℤ) {f : ℝ} (hf : f ∈ Ioc (-(binWidth / 2)) (binWidth / 2)) :
    gkpBinnerFrac (n * binWidth + f) = (n % 2, f) := by
  unfold gkpBinnerFrac
  simp only [intFrac_bin n hf]

theorem measurable_intFrac : Measurable fun x => integerFractional x binWidth := by
  unfold integerFractional divmod
  have h1 : Measurable fun x : ℝ => ⌊x / binWidth⌋ := Int.measurable_floor.comp (measurable_id.div_const _)
  have h2 : Measurable fun x : ℝ => x - binWidth * (⌊x / binWidth⌋ : ℝ) :=
    measurable_id.sub (measurable_const.mul ((measurable_of_countable (fun z : ℤ => (z : ℝ))).comp h1))
  have h3 : Measurable fun x : ℝ => (if x - binWidth * (⌊x / binWidth⌋ : ℝ) > binWidth / 2 then (1 : ℤ) else 0) :=
    Measurable.ite (measurableSet_lt measurable_const h2) measurable_const measurable_const
  exact Measurable.prodMk (h1.add h3) (h2.sub (measurable_const.mul ((measurable_of_countable (fun z : ℤ => (z : ℝ))).comp h3)))

theorem measurable_binnerFrac : Measurable gkpBinnerFrac := by
  have h := measurable_intFrac
  exact ((measurable_of_countable (fun z : ℤ => z % 2)).comp h.fst).prodMk h.snd

theorem measurable_binner : Measurable gkpBinner := measurable_binnerFrac.fst

/-! ### Gaussian weights of the multiples of `√π` -/

theorem summable_abs_exp : Summable fun n : ℤ => Real.exp (-|(n : ℝ)|) := by
  have hs : Summable fun n : ℕ => Real.exp (-(n : ℝ)) := by
    have := summable_geometric_of_lt_one (Real.exp_pos (-1)).le (by rw [Real.exp_lt_one_iff]; norm_num)
    refine this.congr fun n => ?_
    rw [← Real.exp_nat_mul]
    ring_nf
  refine Summable.of_nat_of_neg ?_ ?_ <;> refine hs.congr fun n => ?_ <;> simp

theorem exVal_summable (x : ℝ) {var : ℝ} (hv : 0 < var) : Summable fun n : ℤ => exVal x var n := by
  have hw := binWidth_pos
  -- `(x - n w)² / var ≥ |n| - c`
  obtain ⟨c, hc⟩ : ∃ c : ℝ, ∀ t : ℝ, |t| - c ≤ (x - t * binWidth) ^ 2 / var := by
    refine ⟨var / (4 * binWidth ^ 2) + |x| / binWidth, fun t => ?_⟩
    have h1 : |t| * binWidth - |x| ≤ |x - t * binWidth| := by
      have := abs_sub_abs_le_abs_sub (t * binWidth) x
      rw [abs_mul, abs_of_pos hw, abs_sub_comm] at this
      exact this
    have h2 : |x - t * binWidth| / binWidth - var / (4 * binWidth ^ 2) ≤ (x - t * binWidth) ^ 2 / var := by
      rw [← sq_abs (x - t * binWidth)]
      set y := |x - t * binWidth|
      rw [← sub_nonneg]
      have : y ^ 2 / var - (y / binWidth - var / (4 * binWidth ^ 2)) = (2 * binWidth * y - var) ^ 2 / (4 * binWidth ^ 2 * var) := by
        field_simp
        ring
      rw [this]
      positivity
    have h3 : |t| - |x| / binWidth ≤ |x - t * binWidth| / binWidth := by
      rw [le_div_iff₀ hw, sub_mul, div_mul_cancel₀ _ hw.ne']
      exact h1
    linarith
  refine Summable.of_nonneg_of_le (fun n => (Real.exp_pos _).le) (fun n => ?_) (summable_abs_exp.mul_left (Real.exp c))
  unfold exVal
  rw [← Real.exp_add]
  apply Real.exp_le_exp.2
  have := hc n
  rw [neg_div]
  linarith

theorem tendsto_sum_Ico {g : ℤ → ℝ} (hg : Summable g) :
    Tendsto (fun N : ℕ => ∑ i ∈ Finset.Ico (-(N : ℤ)) N, g i) atTop (𝓝 (∑' i, g i)) := by
  refine hg.hasSum.comp (tendsto_atTop_finset_of_monotone (fun a b hab => ?_) fun x => ⟨x.natAbs + 1, ?_⟩)
  · apply Finset.Ico_subset_Ico <;> omega
  · rw [Finset.mem_Ico]
    omega

theorem symRange_sum (N : ℕ) (g : ℤ → ℝ) : ((symRange N).map g).sum = ∑ i ∈ Finset.Ico (-(N : ℤ)) N, g i := by
  unfold symRange
  rw [List.map_map, list_sum_range]
  refine Finset.sum_bij (fun i _ => (i : ℤ) - N) ?_ ?_ ?_ ?_
  · intro i hi
    rw [Finset.mem_range] at hi
    rw [Finset.mem_Ico]
    omega
  · intro i _ j _ h
    omega
  · intro k hk
    rw [Finset.mem_Ico] at hk
    exact ⟨(k + N).toNat, by rw [Finset.mem_range]; omega, by omega⟩
  · intro i _
    rfl

theorem summable_odd {g : ℤ → ℝ} (hg : Summable g) (c : ℤ) : Summable fun i : ℤ => g (2 * i + c) :=
  hg.comp_injective fun a b h => by
    have : 2 * a + c = 2 * b + c := h
    omega

/-! ### Integrals against a centred Gaussian, bin by bin -/

theorem pdf_eq {var : ℝ} (hv : 0 < var) (n : ℤ) (f : ℝ) :
    gaussianPDF 0 (var / 2).toNNReal (n * binWidth + f) =
      ENNReal.ofReal (√(Real.pi * var))⁻¹ * ENNReal.ofReal (exVal f var (-n)) := by
  rw [gaussianPDF_def, gaussianPDFReal_def]
  beta_reduce
  rw [ENNReal.ofReal_mul (by positivity)]
  have h2 : ((var / 2).toNNReal : ℝ) = var / 2 := Real.coe_toNNReal _ (by positivity)
  simp only [h2]
  congr 3
  · ring_nf
  · push_cast
    ring

theorem lintegral_gauss_bins {var : ℝ} (hv : 0 < var) {h : ℝ → ℝ≥0∞} (hm : Measurable h) :
    ∫⁻ x, h x ∂gaussianReal 0 (var / 2).toNNReal =
      ENNReal.ofReal (√(Real.pi * var))⁻¹ * ∫⁻ f in Ioc (-(binWidth / 2)) (binWidth / 2),
        ∑' n : ℤ, h (n * binWidth + f) * ENNReal.ofReal (exVal f var (-n)) := by
  have hne : (var / 2).toNNReal ≠ 0 := by
    rw [Ne, Real.toNNReal_eq_zero, not_le]
    positivity
  have hme : ∀ n : ℤ, Measurable fun f : ℝ => exVal f var n := fun n => by
    unfold exVal
    exact Real.measurable_exp.comp (((measurable_id.sub_const _).pow_const 2).neg.div_const _)
  rw [gaussianReal_of_var_ne_zero _ hne, lintegral_withDensity_eq_lintegral_mul _ (measurable_gaussianPDF _ _) hm,
    lintegral_bins, ← lintegral_const_mul]
  · rw [← lintegral_tsum]
    · congr 1
      funext f
      rw [← ENNReal.tsum_mul_left]
      congr 1
      funext n
      rw [Pi.mul_apply, pdf_eq hv]
      ring
    · intro n
      exact (((measurable_gaussianPDF _ _).mul hm).comp (measurable_const_add _)).aemeasurable
  · refine Measurable.tsum fun n => ?_
    exact (hm.comp (measurable_const_add _)).mul (hme _).ennreal_ofReal

end Flamingpy.Gkp
