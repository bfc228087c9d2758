import Verif.Props.GkpLaw
import Mathlib.Probability.Moments.Basic

/-!
# C62: what `Z_err` computes
-/

namespace Flamingpy.Gkp

open MeasureTheory Filter Set ProbabilityTheory
open scoped ENNReal NNReal Topology

/-- The law of a centred Gaussian with standard deviation `v / √2`. -/
noncomputable abbrev noise (v : ℝ) : Measure ℝ := gaussianReal 0 (v ^ 2 / 2).toNNReal

theorem noise_ne {v : ℝ} (hv : 0 < v) : (v ^ 2 / 2).toNNReal ≠ 0 := by
  rw [Ne, Real.toNNReal_eq_zero, not_le]
  positivity

theorem noise_Ioc {v : ℝ} (hv : 0 < v) {a b : ℝ} (hab : a ≤ b) :
    ∫ t in a..b, Real.exp (-(t / v) ^ 2) / (v * √Real.pi) = (noise v).real (Ioc a b) := by
  have hp : ∀ t, gaussianPDFReal 0 (v ^ 2 / 2).toNNReal t = Real.exp (-(t / v) ^ 2) / (v * √Real.pi) := fun t => by
    rw [gaussianPDFReal_def]
    simp only [Real.coe_toNNReal _ (show (0 : ℝ) ≤ v ^ 2 / 2 by positivity)]
    rw [show 2 * Real.pi * (v ^ 2 / 2) = v ^ 2 * Real.pi by ring, Real.sqrt_mul (by positivity), Real.sqrt_sq hv.le,
      mul_comm, div_eq_mul_inv]
    congr 2
    field_simp
    ring
  rw [measureReal_def, gaussianReal_apply_eq_integral _ (noise_ne hv), ENNReal.toReal_ofReal
    (integral_nonneg fun t => gaussianPDFReal_nonneg _ _ _), intervalIntegral.integral_of_le hab]
  exact integral_congr_ae (ae_of_all _ fun t => (hp t).symm)

/-- The outcomes outside the zero bins number `-m, ..., m`. -/
def outside (m : ℤ) : Set ℝ :=
  {x | ∀ k : ℤ, |k| ≤ m → ¬((2 * k - 1 / 2) * √Real.pi < x ∧ x ≤ (2 * k + 1 / 2) * √Real.pi)}

theorem outside_eq (m : ℤ) : outside m =
    (⋃ k ∈ Finset.Icc (-m) m, Ioc ((2 * (k : ℝ) - 1 / 2) * √Real.pi) ((2 * k + 1 / 2) * √Real.pi))ᶜ := by
  ext x
  simp only [outside, mem_setOf_eq, mem_compl_iff, mem_iUnion, Finset.mem_Icc, mem_Ioc, exists_prop, not_exists, abs_le]
  constructor
  · intro h k hk
    exact h k hk.1 hk.2
  · intro h k hk
    exact fun h2 => h k ⟨hk, h2⟩

/-- C62.  An entry of `Z_err` is the probability that Gaussian noise of standard deviation `v / √2` falls outside
the zero bins number `-m, ..., m`, where `m` is half of `var_num` times the largest entry, rounded. -/
theorem C62_value {v varMax varNum : ℝ} (hv : 0 < v) (hm : 0 ≤ varMax) (hn : 0 ≤ varNum) :
    zErrEntry erf varMax varNum v = (noise v).real (outside (⌈varNum * varMax⌉ / 2)) := by
  rw [C05_mass varMax varNum v hv hm hn, outside_eq, measureReal_compl, probReal_univ, measureReal_biUnion_finset]
  · congr 1
    refine Finset.sum_congr rfl fun k _ => ?_
    rw [noise_Ioc hv]
    exact mul_le_mul_of_nonneg_right (by linarith) (Real.sqrt_nonneg _)
  · intro i _ j _ hij
    rw [Function.onFun, Set.disjoint_left]
    rintro x ⟨h1, h2⟩ ⟨h3, h4⟩
    have hw : 0 < √Real.pi := Real.sqrt_pos.2 Real.pi_pos
    have a1 : (2 * (i : ℝ) - 1 / 2) < 2 * j + 1 / 2 := lt_of_mul_lt_mul_right (h1.trans_le h4) hw.le
    have a2 : (2 * (j : ℝ) - 1 / 2) < 2 * i + 1 / 2 := lt_of_mul_lt_mul_right (h3.trans_le h2) hw.le
    apply hij
    have b1 : (2 * i : ℤ) < 2 * j + 1 := by
      have : (2 * (i : ℝ)) < 2 * j + 1 := by linarith
      exact_mod_cast this
    have b2 : (2 * j : ℤ) < 2 * i + 1 := by
      have : (2 * (j : ℝ)) < 2 * i + 1 := by linarith
      exact_mod_cast this
    omega
  · intro k _
    exact measurableSet_Ioc
  · exact Finset.measurableSet_biUnion _ fun k _ => measurableSet_Ioc

/-- Which bin an outcome is in. -/
theorem outside_iff {m : ℤ} (x : ℝ) (n : ℤ) (f : ℝ) (hx : x = n * √Real.pi + f) (h1 : -(√Real.pi / 2) < f) (h2 : f ≤ √Real.pi / 2) :
    x ∈ outside m ↔ n % 2 = 1 ∨ m < |n / 2| := by
  have hw : 0 < √Real.pi := Real.sqrt_pos.2 Real.pi_pos
  have key : ∀ k : ℤ, ((2 * k - 1 / 2) * √Real.pi < x ∧ x ≤ (2 * k + 1 / 2) * √Real.pi) ↔ n = 2 * k := fun k => by
    constructor
    · rintro ⟨a, b⟩
      have := integerFractional_unique (x := x) hw (2 * k) (x - ((2 * k : ℤ) : ℝ) * √Real.pi) (by ring)
        (by push_cast; linarith) (by push_cast; linarith)
      rw [integerFractional_unique hw n f hx h1 h2] at this
      exact (Prod.mk.inj this).1
    · rintro rfl
      rw [hx]
      push_cast
      constructor <;> linarith
  simp only [outside, mem_setOf_eq, key]
  constructor
  · intro h
    by_contra hc
    push Not at hc
    exact h (n / 2) hc.2 (by omega)
  · rintro h k hk rfl
    rcases h with h | h
    · omega
    · rw [show 2 * k / 2 = k by omega] at h
      omega

theorem wrong_subset {m : ℤ} : {x | gkpBinner x = 1} ⊆ outside m := by
  intro x hx
  have hf := integerFractional_frac x binWidth_pos
  rw [outside_iff x _ _ (integerFractional_eq x binWidth) hf.1 hf.2]
  exact Or.inl hx

theorem outside_subset {m : ℤ} (hm : 0 ≤ m) :
    outside m ⊆ {x | gkpBinner x = 1} ∪ {x | (2 * m + 3 / 2) * √Real.pi ≤ |x|} := by
  intro x hx
  have hw : 0 < √Real.pi := Real.sqrt_pos.2 Real.pi_pos
  have hf := integerFractional_frac x binWidth_pos
  have he := integerFractional_eq x binWidth
  rw [outside_iff x _ _ he hf.1 hf.2] at hx
  rcases hx with h | h
  · exact Or.inl h
  by_cases hodd : (integerFractional x binWidth).1 % 2 = 1
  · exact Or.inl hodd
  right
  generalize (integerFractional x binWidth).1 = n at *
  generalize (integerFractional x binWidth).2 = f at *
  obtain ⟨k, rfl⟩ : ∃ k, n = 2 * k := ⟨n / 2, by omega⟩
  rw [show 2 * k / 2 = k by omega] at h
  change (2 * (m : ℝ) + 3 / 2) * binWidth ≤ |x|
  have hw' := binWidth_pos
  push_cast at he
  rcases lt_abs.1 h with h | h
  · have : (m : ℝ) + 1 ≤ k := by exact_mod_cast h
    rw [le_abs]
    left
    nlinarith [hf.1]
  · have : (m : ℝ) + 1 ≤ -k := by exact_mod_cast h
    rw [le_abs]
    right
    nlinarith [hf.2]

/-- C62.  `Z_err` is never below the probability that the noise flips the bit, and exceeds it at most by the probability of
noise beyond the bins counted. -/
theorem C62_bounds {v varMax varNum : ℝ} (hv : 0 < v) (hm : 0 ≤ varMax) (hn : 0 ≤ varNum) :
    (noise v).real {x | gkpBinner x = 1} ≤ zErrEntry erf varMax varNum v ∧
      zErrEntry erf varMax varNum v ≤ (noise v).real {x | gkpBinner x = 1} +
        (noise v).real {x | (2 * (⌈varNum * varMax⌉ / 2 : ℤ) + 3 / 2) * √Real.pi ≤ |x|} := by
  have h0 : 0 ≤ ⌈varNum * varMax⌉ / 2 := by
    have : 0 ≤ ⌈varNum * varMax⌉ := Int.ceil_nonneg (mul_nonneg hn hm)
    omega
  rw [C62_value hv hm hn]
  exact ⟨measureReal_mono wrong_subset, (measureReal_mono (outside_subset h0)).trans (measureReal_union_le _ _)⟩

theorem noise_mgf (v t : ℝ) : mgf id (noise v) t = Real.exp (v ^ 2 * t ^ 2 / 4) := by
  rw [mgf_id_gaussianReal]
  simp only [Real.coe_toNNReal _ (show (0 : ℝ) ≤ v ^ 2 / 2 by positivity)]
  congr 1
  ring

/-- Tails of the noise. -/
theorem noise_tail {v : ℝ} (hv : 0 < v) {a : ℝ} (ha : 0 ≤ a) :
    (noise v).real {x | a ≤ |x|} ≤ 2 * Real.exp (-(a / v) ^ 2) := by
  have hi : ∀ t : ℝ, Integrable (fun x => Real.exp (t * id x)) (noise v) := fun t => integrable_exp_mul_gaussianReal t
  have h1 := measure_ge_le_exp_mul_mgf (μ := noise v) (X := id) (t := 2 * a / v ^ 2) a (by positivity) (hi _)
  have h2 := measure_le_le_exp_mul_mgf (μ := noise v) (X := id) (t := -(2 * a / v ^ 2)) (-a)
    (by rw [Left.neg_nonpos_iff]; positivity) (hi _)
  rw [noise_mgf, ← Real.exp_add] at h1 h2
  have e1 : -(2 * a / v ^ 2) * a + v ^ 2 * (2 * a / v ^ 2) ^ 2 / 4 = -(a / v) ^ 2 := by
    field_simp
    ring
  have e2 : -(-(2 * a / v ^ 2)) * -a + v ^ 2 * (-(2 * a / v ^ 2)) ^ 2 / 4 = -(a / v) ^ 2 := by
    field_simp
    ring
  rw [e1] at h1
  rw [e2] at h2
  have hs : {x : ℝ | a ≤ |x|} ⊆ {x | a ≤ id x} ∪ {x | id x ≤ -a} := by
    intro x hx
    rcases le_abs.1 (show a ≤ |x| from hx) with h | h
    · exact Or.inl h
    · exact Or.inr (by rw [mem_setOf_eq, id]; linarith)
  calc (noise v).real {x | a ≤ |x|} ≤ _ := measureReal_mono hs
    _ ≤ _ := measureReal_union_le _ _
    _ ≤ _ := by linarith

/-- C62.  With more and more bins, `Z_err` approaches the probability that the noise flips the bit. -/
theorem C62_limit {v varMax : ℝ} (hv : 0 < v) (hm : 0 < varMax) :
    Tendsto (fun varNum => zErrEntry erf varMax varNum v) atTop (𝓝 ((noise v).real {x | gkpBinner x = 1})) := by
  have htail : Tendsto (fun varNum : ℝ => (noise v).real {x | gkpBinner x = 1} +
      2 * Real.exp (-(varNum * varMax * √Real.pi / v))) atTop (𝓝 ((noise v).real {x | gkpBinner x = 1} + 2 * 0)) := by
    refine tendsto_const_nhds.add (Tendsto.const_mul 2 (Real.tendsto_exp_neg_atTop_nhds_zero.comp ?_))
    have hc : 0 < varMax * √Real.pi / v := div_pos (mul_pos hm (Real.sqrt_pos.2 Real.pi_pos)) hv
    refine (tendsto_id.atTop_mul_const hc).congr fun x => ?_
    rw [id]
    ring
  rw [mul_zero, add_zero] at htail
  refine tendsto_of_tendsto_of_tendsto_of_le_of_le' tendsto_const_nhds htail ?_ ?_
  · filter_upwards [eventually_ge_atTop 0] with x hx
    exact (C62_bounds hv hm.le hx).1
  · filter_upwards [eventually_ge_atTop 0, eventually_ge_atTop (v / varMax)] with x hx hx2
    refine (C62_bounds hv hm.le hx).2.trans (add_le_add le_rfl ?_)
    have hw : 0 < √Real.pi := Real.sqrt_pos.2 Real.pi_pos
    have hw1 : 1 ≤ √Real.pi := by
      rw [← Real.sqrt_one]
      exact Real.sqrt_le_sqrt (by linarith [Real.pi_gt_three])
    have h0 : 0 ≤ ⌈x * varMax⌉ := Int.ceil_nonneg (mul_nonneg hx hm.le)
    have hce : x * varMax ≤ 2 * (⌈x * varMax⌉ / 2 : ℤ) + 3 / 2 := by
      have h1 := Int.le_ceil (x * varMax)
      have h2 : ⌈x * varMax⌉ ≤ 2 * (⌈x * varMax⌉ / 2) + 1 := by omega
      have h3 : ((⌈x * varMax⌉ : ℤ) : ℝ) ≤ 2 * ((⌈x * varMax⌉ / 2 : ℤ) : ℝ) + 1 := by exact_mod_cast h2
      linarith
    set M : ℝ := 2 * (⌈x * varMax⌉ / 2 : ℤ) + 3 / 2
    have hM : v ≤ x * varMax := by rwa [div_le_iff₀ hm] at hx2
    have hpos : 0 ≤ x * varMax := mul_nonneg hx hm.le
    refine (noise_tail hv (a := M * √Real.pi) (by have : 0 ≤ M := hpos.trans hce; positivity)).trans ?_
    refine mul_le_mul_of_nonneg_left (Real.exp_le_exp.2 (neg_le_neg ?_)) (by norm_num)
    have a1 : x * varMax * √Real.pi / v ≤ M * √Real.pi / v := by gcongr
    have a2 : 1 ≤ M * √Real.pi / v := by
      rw [one_le_div hv]
      nlinarith
    nlinarith

/-- C62 fails if the entries of `var` are read as variances, as the documentation says, or as in `Z_err_cond` (twice the variance):
for `var = 1/20` and noise of variance `1/20` or `1/40` the probability of a flip is larger than `Z_err`, however many bins are
counted. -/
theorem C62_not_variance {varNum s : ℝ} (hn : 0 ≤ varNum) (hs : s = 1 / 20 ∨ s = 1 / 40) :
    ∃ e, zErr erf (1 / 20) [] varNum = [e] ∧ e < (gaussianReal 0 s.toNNReal).real {x | gkpBinner x = 1} := by
  refine ⟨zErrEntry erf (1 / 20) varNum (1 / 20), rfl, ?_⟩
  have hv : (0 : ℝ) < 1 / 20 := by norm_num
  have hw : 0 < √Real.pi := Real.sqrt_pos.2 Real.pi_pos
  have hw2 : √Real.pi ^ 2 = Real.pi := Real.sq_sqrt Real.pi_pos.le
  have hpi := Real.pi_gt_three
  -- an upper bound for `Z_err`
  have hup : zErrEntry erf (1 / 20) varNum (1 / 20) ≤ 2 * Real.exp (-(100 * Real.pi)) := by
    rw [C62_value hv hv.le hn]
    have hsub : outside (⌈varNum * (1 / 20)⌉ / 2) ⊆ {x | √Real.pi / 2 ≤ |x|} := by
      intro x hx
      have h0 : 0 ≤ ⌈varNum * (1 / 20)⌉ := Int.ceil_nonneg (mul_nonneg hn hv.le)
      have := hx 0 (by rw [abs_zero]; omega)
      rw [mem_setOf_eq]
      by_contra hc
      rw [not_le, abs_lt] at hc
      apply this
      push_cast
      constructor <;> linarith
    refine (measureReal_mono hsub).trans ((noise_tail hv (by positivity)).trans (le_of_eq ?_))
    congr 3
    rw [div_pow, div_pow, hw2]
    ring
  -- a lower bound for the probability of a flip
  have hs0 : 0 < s := by rcases hs with rfl | rfl <;> norm_num
  have hsu : s ≤ 1 / 20 := by rcases hs with rfl | rfl <;> norm_num
  have hsl : 1 / 40 ≤ s := by rcases hs with rfl | rfl <;> norm_num
  have hne : s.toNNReal ≠ 0 := by
    rw [Ne, Real.toNNReal_eq_zero, not_le]
    exact hs0
  have hlow : Real.exp (-(45 * Real.pi)) ≤ (gaussianReal 0 s.toNNReal).real {x | gkpBinner x = 1} := by
    have hsub : Ioo (√Real.pi / 2) (3 * √Real.pi / 2) ⊆ {x | gkpBinner x = 1} := by
      intro x hx
      exact (C02_bins x 0).2 (by push_cast; linarith [hx.1]) (by push_cast; linarith [hx.2])
    refine le_trans ?_ (measureReal_mono hsub)
    rw [measureReal_def, gaussianReal_apply_eq_integral _ hne, ENNReal.toReal_ofReal
      (integral_nonneg fun t => gaussianPDFReal_nonneg _ _ _)]
    have hc : ∫ x in Ioo (√Real.pi / 2) (3 * √Real.pi / 2), Real.exp (-(45 * Real.pi)) / √Real.pi = Real.exp (-(45 * Real.pi)) := by
      rw [setIntegral_const, measureReal_def, Real.volume_Ioo, ENNReal.toReal_ofReal (by linarith), smul_eq_mul]
      field_simp
      ring
    rw [← hc]
    refine setIntegral_mono_on (integrableOn_const (by rw [Real.volume_Ioo]; exact ENNReal.ofReal_ne_top)) (integrable_gaussianPDFReal _ _).integrableOn measurableSet_Ioo
      fun x hx => ?_
    rw [gaussianPDFReal_def]
    simp only [Real.coe_toNNReal _ hs0.le]
    rw [div_eq_mul_inv, mul_comm _ (Real.exp (-(x - 0) ^ 2 / (2 * s)))]
    have h1 : √(2 * Real.pi * s) ≤ √Real.pi := Real.sqrt_le_sqrt (by nlinarith)
    have h2 : 0 < √(2 * Real.pi * s) := Real.sqrt_pos.2 (by positivity)
    refine mul_le_mul (Real.exp_le_exp.2 ?_) (inv_anti₀ h2 h1) (inv_nonneg.2 hw.le) (Real.exp_pos _).le
    rw [sub_zero, neg_div, neg_le_neg_iff, div_le_iff₀ (by positivity)]
    have hx2 : x ^ 2 ≤ (3 * √Real.pi / 2) ^ 2 := by
      apply pow_le_pow_left₀ _ hx.2.le
      linarith [hx.1]
    have : (3 * √Real.pi / 2) ^ 2 = 9 / 4 * Real.pi := by rw [div_pow, mul_pow, hw2]; ring
    nlinarith
  refine lt_of_le_of_lt hup (lt_of_lt_of_le ?_ hlow)
  have h3 : Real.exp (-(100 * Real.pi)) = Real.exp (-(45 * Real.pi)) * Real.exp (-(55 * Real.pi)) := by
    rw [← Real.exp_add]
    ring_nf
  have h4 : Real.exp (-(55 * Real.pi)) < 1 / 2 := by
    rw [Real.exp_neg, one_div]
    apply inv_strictAnti₀ (by norm_num)
    have := Real.add_one_le_exp (55 * Real.pi)
    linarith
  rw [h3]
  nlinarith [Real.exp_pos (-(45 * Real.pi))]

example : Tendsto (fun varNum => zErrEntry erf 2 varNum (1 / 2)) atTop (𝓝 ((noise (1 / 2)).real {x | gkpBinner x = 1})) :=
  C62_limit (by norm_num) (by norm_num)

end Flamingpy.Gkp
