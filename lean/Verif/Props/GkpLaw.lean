import Verif.Proofs.GkpLaw
import Verif.Props.Gkp

/-!
# C63: what `Z_err_cond` computes

A momentum outcome is a multiple `m√π` (the noiseless value) plus centred Gaussian noise; the bit read off is wrong if it is not the
parity of `m`.
-/

namespace Flamingpy.Gkp

open MeasureTheory Filter Set ProbabilityTheory
open scoped ENNReal NNReal Topology

/-- Specification: the Gaussian weight of the odd multiples of `√π` seen from `f`, over the weight of all multiples. -/
noncomputable def errGiven (var f : ℝ) : ℝ :=
  (∑' k : ℤ, Real.exp (-(f - (2 * k + 1) * √Real.pi) ^ 2 / var)) / ∑' k : ℤ, Real.exp (-(f - k * √Real.pi) ^ 2 / var)

theorem errGiven_eq (var f : ℝ) : errGiven var f = (∑' k : ℤ, exVal f var (2 * k + 1)) / ∑' k : ℤ, exVal f var k := by
  unfold errGiven exVal binWidth
  congr 2
  funext k
  push_cast
  rfl

theorem theta_pos (f : ℝ) {var : ℝ} (hv : 0 < var) : 0 < ∑' k : ℤ, exVal f var k :=
  (exVal_summable f hv).tsum_pos (fun _ => (Real.exp_pos _).le) 0 (Real.exp_pos _)

theorem exVal_nonneg (f var : ℝ) (n : ℤ) : 0 ≤ exVal f var n := (Real.exp_pos _).le

theorem ofReal_errGiven {var : ℝ} (hv : 0 < var) (f : ℝ) :
    ENNReal.ofReal (errGiven var f) =
      (∑' k : ℤ, ENNReal.ofReal (exVal f var (2 * k + 1))) / ∑' k : ℤ, ENNReal.ofReal (exVal f var k) := by
  have hs := exVal_summable f hv
  rw [errGiven_eq, ENNReal.ofReal_div_of_pos (theta_pos f hv),
    ENNReal.ofReal_tsum_of_nonneg (fun k => exVal_nonneg f var (2 * k + 1)) (summable_odd hs 1),
    ENNReal.ofReal_tsum_of_nonneg (fun k => exVal_nonneg f var k) hs]

theorem measurable_exVal (var : ℝ) (n : ℤ) : Measurable fun f : ℝ => exVal f var n := by
  unfold exVal
  exact Real.measurable_exp.comp (((measurable_id.sub_const _).pow_const 2).neg.div_const _)

theorem measurable_errGiven {var : ℝ} (hv : 0 < var) : Measurable fun f => ENNReal.ofReal (errGiven var f) := by
  simp only [ofReal_errGiven hv]
  exact (Measurable.tsum fun n => (measurable_exVal _ _).ennreal_ofReal).div
    (Measurable.tsum fun n => (measurable_exVal _ _).ennreal_ofReal)

/-- C63.  With more and more terms, `Z_err_cond` approaches the ratio for the fractional part of the outcome, whether or
not it is given the whole outcome. -/
theorem C63_limit {var : ℝ} (hv : 0 < var) (homVal ru : ℝ) (useHomVal : Bool) :
    Tendsto (fun N => zErrCond var homVal N ru useHomVal) atTop (𝓝 (errGiven var (gkpBinnerFrac homVal).2)) := by
  set n := (integerFractional homVal binWidth).1 with hn
  set f := (gkpBinnerFrac homVal).2 with hf
  have hx : homVal = n * binWidth + f := integerFractional_eq homVal binWidth
  have hbit : (gkpBinnerFrac homVal).1 = n % 2 := rfl
  set val := if useHomVal then homVal else f
  set factor : ℤ := if useHomVal then 1 - n % 2 else 1
  have hs := exVal_summable val hv
  -- the sums do not depend on the flag
  have hshift : ∀ k : ℤ, exVal homVal var k = exVal f var (k - n) := fun k => by
    unfold exVal
    rw [hx]
    congr 2
    push_cast
    ring
  have h1 : ∑' k : ℤ, exVal val var k = ∑' k : ℤ, exVal f var k := by
    cases useHomVal with
    | false => rfl
    | true =>
      change ∑' k : ℤ, exVal homVal var k = _
      simp only [hshift]
      exact (Equiv.subRight n).tsum_eq fun k => exVal f var k
  have h2 : ∑' k : ℤ, exVal val var (2 * k + factor) = ∑' k : ℤ, exVal f var (2 * k + 1) := by
    cases useHomVal with
    | false => rfl
    | true =>
      change ∑' k : ℤ, exVal homVal var (2 * k + (1 - n % 2)) = _
      simp only [hshift]
      rw [← (Equiv.subRight (n % 2 + n / 2)).tsum_eq fun k => exVal f var (2 * k + 1)]
      congr 1
      funext k
      congr 1
      simp only [Equiv.subRight_apply]
      omega
  have hden := tendsto_sum_Ico hs
  have hnum := tendsto_sum_Ico (summable_odd hs factor)
  rw [h1] at hden
  rw [h2] at hnum
  have hq := hnum.div hden (theta_pos f hv).ne'
  rw [← errGiven_eq] at hq
  refine hq.congr' ?_
  filter_upwards [eventually_ge_atTop 1] with N hN
  unfold zErrCond
  simp only [hbit, symRange_sum]
  rw [if_pos]
  · rfl
  · apply ne_of_gt
    apply Finset.sum_pos (fun _ _ => Real.exp_pos _)
    exact ⟨0, by rw [Finset.mem_Ico]; omega⟩

/-- C63.  That ratio is the conditional probability of a wrong bit given the fractional part of the outcome, for noise of
variance `var / 2` (so `exp(-x² / var)` is its density): for every set of fractional parts, the probability of an error with the fractional
part in the set is the integral of the ratio. -/
theorem C63_conditional {var : ℝ} (hv : 0 < var) (m : ℤ) {A : Set ℝ} (hA : MeasurableSet A) :
    gaussianReal 0 (var / 2).toNNReal
        {x | gkpBinner (m * √Real.pi + x) ≠ m % 2 ∧ (gkpBinnerFrac (m * √Real.pi + x)).2 ∈ A} =
      ∫⁻ x in {x | (gkpBinnerFrac (m * √Real.pi + x)).2 ∈ A},
        ENNReal.ofReal (errGiven var (gkpBinnerFrac (m * √Real.pi + x)).2) ∂gaussianReal 0 (var / 2).toNNReal := by
  change gaussianReal 0 (var / 2).toNNReal
        {x | gkpBinner (m * binWidth + x) ≠ m % 2 ∧ (gkpBinnerFrac (m * binWidth + x)).2 ∈ A} =
      ∫⁻ x in {x | (gkpBinnerFrac (m * binWidth + x)).2 ∈ A},
        ENNReal.ofReal (errGiven var (gkpBinnerFrac (m * binWidth + x)).2) ∂gaussianReal 0 (var / 2).toNNReal
  have hm1 : Measurable fun x : ℝ => gkpBinnerFrac (m * binWidth + x) := measurable_binnerFrac.comp (measurable_const_add _)
  have hm2 : MeasurableSet {x : ℝ | (gkpBinnerFrac (m * binWidth + x)).2 ∈ A} := hm1.snd hA
  have hm3 : MeasurableSet {x : ℝ | gkpBinner (m * binWidth + x) ≠ m % 2 ∧ (gkpBinnerFrac (m * binWidth + x)).2 ∈ A} :=
    ((measurable_binner.comp (measurable_const_add _)) (measurableSet_singleton (m % 2)).compl).inter hm2
  have hm4 : Measurable ({x : ℝ | (gkpBinnerFrac (m * binWidth + x)).2 ∈ A}.indicator
      fun x => ENNReal.ofReal (errGiven var (gkpBinnerFrac (m * binWidth + x)).2)) :=
    Measurable.indicator ((measurable_errGiven hv).comp hm1.snd) hm2
  rw [← lintegral_indicator_one hm3, ← lintegral_indicator hm2, lintegral_gauss_bins hv (measurable_one.indicator hm3),
    lintegral_gauss_bins hv hm4]
  congr 1
  refine setLIntegral_congr_fun measurableSet_Ioc fun f hf => ?_
  have hbin : ∀ n : ℤ, gkpBinnerFrac (m * binWidth + (n * binWidth + f)) = ((m + n) % 2, f) := fun n => by
    rw [← binner_bin (m + n) hf]
    congr 1
    push_cast
    ring
  have hb1 : ∀ n : ℤ, gkpBinner (m * binWidth + (n * binWidth + f)) = (m + n) % 2 := fun n => by
    change (gkpBinnerFrac (m * binWidth + (n * binWidth + f))).1 = _
    rw [hbin]
  classical
  by_cases hfA : f ∈ A
  · have e1 : ∀ n : ℤ, ({x : ℝ | gkpBinner (m * binWidth + x) ≠ m % 2 ∧ (gkpBinnerFrac (m * binWidth + x)).2 ∈ A}.indicator
        (1 : ℝ → ℝ≥0∞) (n * binWidth + f)) * ENNReal.ofReal (exVal f var (-n)) =
        if n % 2 = 1 then ENNReal.ofReal (exVal f var (-n)) else 0 := fun n => by
      rw [indicator_apply]
      simp only [mem_setOf_eq, hbin, hb1, hfA, and_true, Pi.one_apply]
      by_cases h : n % 2 = 1
      · rw [if_pos h, if_pos (by omega), one_mul]
      · rw [if_neg h, if_neg (by omega), zero_mul]
    have e2 : ∀ n : ℤ, ({x : ℝ | (gkpBinnerFrac (m * binWidth + x)).2 ∈ A}.indicator
        (fun x => ENNReal.ofReal (errGiven var (gkpBinnerFrac (m * binWidth + x)).2)) (n * binWidth + f)) *
          ENNReal.ofReal (exVal f var (-n)) = ENNReal.ofReal (errGiven var f) * ENNReal.ofReal (exVal f var (-n)) := fun n => by
      rw [indicator_apply]
      simp only [mem_setOf_eq, hbin, hfA, if_true]
    change ∑' n : ℤ, _ * _ = ∑' n : ℤ, _ * _
    simp only [e1]
    have hneg : ∑' k : ℤ, ENNReal.ofReal (exVal f var (-k)) = ∑' k : ℤ, ENNReal.ofReal (exVal f var k) :=
      (Equiv.neg ℤ).tsum_eq fun k => ENNReal.ofReal (exVal f var k)
    rw [tsum_congr e2, ENNReal.tsum_mul_left, hneg]
    have hs := exVal_summable f hv
    rw [ofReal_errGiven hv, ENNReal.div_mul_cancel]
    · rw [← (Function.Injective.tsum_eq (g := fun k : ℤ => -(2 * k + 1)) (fun a b h => by
        have : -(2 * a + 1) = -(2 * b + 1) := h
        omega) ?_)]
      · refine tsum_congr fun k => ?_
        rw [if_pos (by omega), neg_neg]
      · intro n hn
        rw [Function.mem_support] at hn
        have : n % 2 = 1 := by
          by_contra h
          rw [if_neg h] at hn
          exact hn rfl
        exact ⟨(-n - 1) / 2, by simp only; omega⟩
    · rw [← ENNReal.ofReal_tsum_of_nonneg (fun k => exVal_nonneg f var k) hs]
      exact (ENNReal.ofReal_pos.2 (theta_pos f hv)).ne'
    · rw [← ENNReal.ofReal_tsum_of_nonneg (fun k => exVal_nonneg f var k) hs]
      exact ENNReal.ofReal_ne_top
  · change ∑' n : ℤ, _ * _ = ∑' n : ℤ, _ * _
    refine tsum_congr fun n => ?_
    rw [indicator_apply, indicator_apply, if_neg, if_neg]
    · simp only [mem_setOf_eq, hbin, hfA, not_false_eq_true]
    · simp only [mem_setOf_eq, hbin, hfA, and_false, not_false_eq_true]

/-! ### Truncation -/

/-- Weights far from the origin, relative to the weight of the origin. -/
theorem exVal_tail {var f : ℝ} (hv : 0 < var) (hf : |f| ≤ binWidth / 2) (N j : ℕ) (k : ℤ) (hk : k.natAbs = N + j) :
    exVal f var k ≤ exVal f var 0 *
      (Real.exp (-(N * (N - 1) * Real.pi) / var) * Real.exp (-(2 * N * Real.pi) / var) ^ j) := by
  unfold exVal
  rw [← Real.exp_nat_mul, ← Real.exp_add, ← Real.exp_add]
  apply Real.exp_le_exp.2
  have hw := binWidth_pos
  have hw2 : binWidth ^ 2 = Real.pi := Real.sq_sqrt Real.pi_pos.le
  have hk' : |(k : ℝ)| = N + j := by
    have : ((k.natAbs : ℕ) : ℝ) = |(k : ℝ)| := by rw [Nat.cast_natAbs, Int.cast_abs]
    rw [← this, hk]
    push_cast
    rfl
  rw [← mul_div_assoc, ← add_div, ← add_div]
  apply div_le_div_of_nonneg_right _ hv.le
  have h1 : f * (k * binWidth) ≤ |f| * ((N + j) * binWidth) := by
    calc f * (k * binWidth) ≤ |f * (k * binWidth)| := le_abs_self _
      _ = |f| * ((N + j) * binWidth) := by rw [abs_mul, abs_mul, hk', abs_of_pos hw]
  have h2 : |f| * ((N + j) * binWidth) ≤ binWidth / 2 * ((N + j) * binWidth) := by
    apply mul_le_mul_of_nonneg_right hf
    positivity
  have h3 : (k : ℝ) ^ 2 = (N + j) ^ 2 := by rw [← sq_abs, hk']
  have h4 : binWidth / 2 * ((N + j) * binWidth) = (N + j) * Real.pi / 2 := by rw [← hw2]; ring
  have h5 : (f - k * binWidth) ^ 2 = f ^ 2 - 2 * (f * (k * binWidth)) + (N + j) ^ 2 * Real.pi := by
    rw [← h3, ← hw2]; ring
  have h6 : (j : ℝ) ≤ j ^ 2 := by
    rcases Nat.eq_zero_or_pos j with rfl | h
    · simp
    · have : (1 : ℝ) ≤ j := by exact_mod_cast h
      nlinarith
  rw [h5]
  push_cast
  nlinarith [Real.pi_pos, mul_nonneg Real.pi_pos.le (sub_nonneg.2 h6)]

/-- Sum over the integers of at least a given absolute value. -/
theorem tsum_far {ρ : ℝ} (h0 : 0 ≤ ρ) (h1 : ρ < 1) {N : ℕ} (hN : 1 ≤ N) (c : ℝ) :
    HasSum (fun k : ℤ => if N ≤ k.natAbs then c * ρ ^ (k.natAbs - N) else 0) (2 * c / (1 - ρ)) := by
  have hg := (hasSum_geometric_of_lt_one h0 h1).mul_left c
  have ha : ∀ N : ℕ, HasSum (fun n : ℕ => if N ≤ n then c * ρ ^ (n - N) else 0) (c * (1 - ρ)⁻¹) := fun N => by
    rw [← hasSum_nat_add_iff' N]
    rw [Finset.sum_eq_zero (fun i hi => if_neg (by rw [Finset.mem_range] at hi; omega)), sub_zero]
    have e : (fun n : ℕ => if N ≤ n + N then c * ρ ^ (n + N - N) else 0) = fun n => c * ρ ^ n := by
      funext n
      rw [if_pos (by omega), Nat.add_sub_cancel]
    rw [e]
    exact hg
  have h := HasSum.of_nat_of_neg_add_one (f := fun k : ℤ => if N ≤ k.natAbs then c * ρ ^ (k.natAbs - N) else 0)
    (m := c * (1 - ρ)⁻¹) (m' := c * (1 - ρ)⁻¹) ?_ ?_
  · convert h using 1
    rw [div_eq_mul_inv]
    ring
  · simpa using ha N
  · refine (ha (N - 1)).congr_fun fun n => ?_
    have e : (-((n : ℤ) + 1)).natAbs = n + 1 := by omega
    simp only [e]
    by_cases hn : N ≤ n + 1
    · rw [if_pos hn, if_pos (by omega), show n + 1 - N = n - (N - 1) by omega]
    · rw [if_neg hn, if_neg (by omega)]

/-- C63.  How far the value with finitely many terms is from the conditional probability. -/
theorem C63_truncation {var : ℝ} (hv : 0 < var) (homVal ru : ℝ) {N : ℕ} (hN : 1 ≤ N) :
    |zErrCond var homVal N ru - errGiven var (gkpBinnerFrac homVal).2| ≤
      2 * Real.exp (-(N * (N - 1) * Real.pi) / var) / (1 - Real.exp (-(2 * N * Real.pi) / var)) := by
  set f := (gkpBinnerFrac homVal).2 with hf
  have hfr := integerFractional_frac homVal binWidth_pos
  have hfb : |f| ≤ binWidth / 2 := abs_le.2 ⟨hfr.1.le, hfr.2⟩
  set g : ℤ → ℝ := fun k => exVal f var k with hg
  have hs : Summable g := exVal_summable f hv
  have hnn : ∀ k, 0 ≤ g k := fun k => exVal_nonneg f var k
  set q := Real.exp (-(N * (N - 1) * Real.pi) / var)
  set ρ := Real.exp (-(2 * N * Real.pi) / var) with hρ
  have hρ1 : ρ < 1 := by
    rw [hρ, Real.exp_lt_one_iff]
    apply div_neg_of_neg_of_pos _ hv
    have : (0 : ℝ) < N := by exact_mod_cast hN
    have := Real.pi_pos
    have : 0 < 2 * (N : ℝ) * Real.pi := by positivity
    linarith
  -- the tail
  set h : ℤ → ℝ := fun k => if N ≤ k.natAbs then g k else 0 with hh
  have hh0 : ∀ k, 0 ≤ h k := fun k => by simp only [hh]; split_ifs; exacts [hnn k, le_rfl]
  have hhg : ∀ k, h k ≤ g k := fun k => by simp only [hh]; split_ifs; exacts [le_rfl, hnn k]
  have hhs : Summable h := Summable.of_nonneg_of_le hh0 hhg hs
  set T := ∑' k, h k
  have hT : T ≤ g 0 * (2 * q / (1 - ρ)) := by
    have hb := (tsum_far (Real.exp_pos _).le hρ1 hN q).mul_left (g 0)
    refine hasSum_le (fun k => ?_) hhs.hasSum hb
    simp only [hh]
    split_ifs with hk
    · exact exVal_tail hv hfb N (k.natAbs - N) k (by omega)
    · simp
  -- sums
  set num := ∑ i ∈ Finset.Ico (-(N : ℤ)) N, g (2 * i + 1) with hnum
  set den := ∑ i ∈ Finset.Ico (-(N : ℤ)) N, g i with hden
  have hdpos : 0 < den := Finset.sum_pos (fun _ _ => Real.exp_pos _) ⟨0, by rw [Finset.mem_Ico]; omega⟩
  have hz : zErrCond var homVal N ru = num / den := by
    unfold zErrCond
    simp only [symRange_sum]
    rw [if_pos]
    · rfl
    · exact hdpos.ne'
  have hle : num ≤ den := by
    have := (C04_probability var homVal N ru hv hN).2
    rw [hz, div_le_one hdpos] at this
    exact this
  have hnum0 : 0 ≤ num := Finset.sum_nonneg fun i _ => hnn _
  obtain ⟨T1, hO, hT1, hT1'⟩ : ∃ T1, ∑' k : ℤ, g (2 * k + 1) = num + T1 ∧ 0 ≤ T1 ∧ T1 ≤ T := by
    refine ⟨∑' k : {k // k ∉ Finset.Ico (-(N : ℤ)) N}, g (2 * k + 1),
      ((summable_odd hs 1).sum_add_tsum_subtype_compl _).symm, tsum_nonneg fun _ => hnn _, ?_⟩
    have hinj : Function.Injective fun k : {k : ℤ // k ∉ Finset.Ico (-(N : ℤ)) N} => 2 * (k : ℤ) + 1 := fun a b e => by
      apply Subtype.ext
      simp only at e
      omega
    refine le_trans (le_of_eq ?_) (tsum_comp_le_tsum_of_inj hhs hh0 hinj)
    refine tsum_congr fun k => ?_
    have := k.2
    rw [Finset.mem_Ico] at this
    simp only [hh, Function.comp]
    rw [if_pos (by omega)]
  obtain ⟨T2, hθ, hT2, hT2'⟩ : ∃ T2, ∑' k : ℤ, g k = den + T2 ∧ 0 ≤ T2 ∧ T2 ≤ T := by
    refine ⟨∑' k : {k // k ∉ Finset.Ico (-(N : ℤ)) N}, g k, (hs.sum_add_tsum_subtype_compl _).symm,
      tsum_nonneg fun _ => hnn _, ?_⟩
    refine le_trans (le_of_eq ?_) (tsum_comp_le_tsum_of_inj hhs hh0 (Subtype.val_injective (p := fun k => k ∉ Finset.Ico (-(N : ℤ)) N)))
    refine tsum_congr fun k => ?_
    have := k.2
    rw [Finset.mem_Ico] at this
    simp only [hh, Function.comp]
    rw [if_pos (by omega)]
  have hθpos := theta_pos f hv
  have hg0 : 0 < g 0 := Real.exp_pos _
  have hg0θ : g 0 ≤ ∑' k : ℤ, g k := hs.le_tsum 0 fun k _ => hnn k
  have hTθ : T / (∑' k : ℤ, g k) ≤ 2 * q / (1 - ρ) := by
    have hr : 0 ≤ 2 * q / (1 - ρ) := div_nonneg (by positivity) (by linarith)
    rw [div_le_iff₀ hθpos]
    calc T ≤ g 0 * (2 * q / (1 - ρ)) := hT
      _ ≤ _ := by rw [mul_comm]; exact mul_le_mul_of_nonneg_left hg0θ hr
  refine le_trans ?_ hTθ
  rw [hz, errGiven_eq]
  change |num / den - (∑' k : ℤ, g (2 * k + 1)) / ∑' k : ℤ, g k| ≤ T / ∑' k : ℤ, g k
  rw [hO, hθ] at *
  rw [div_sub_div _ _ hdpos.ne' hθpos.ne', abs_div, abs_of_pos (mul_pos hdpos hθpos),
    div_le_div_iff₀ (mul_pos hdpos hθpos) hθpos, ← mul_assoc]
  apply mul_le_mul_of_nonneg_right _ hθpos.le
  rw [show num * (den + T2) - den * (num + T1) = num * T2 - den * T1 by ring, abs_le]
  have a1 : num * T2 ≤ den * T := mul_le_mul hle hT2' hT2 hdpos.le
  have a2 : den * T1 ≤ den * T := mul_le_mul_of_nonneg_left hT1' hdpos.le
  have a3 : 0 ≤ num * T2 := mul_nonneg hnum0 hT2
  have a4 : 0 ≤ den * T1 := mul_nonneg hdpos.le hT1
  constructor <;> nlinarith

/-- C63.  With a fixed number of terms the value tends to one as the variance grows: numerator and denominator have the
same number of terms. -/
theorem C63_large_variance (homVal ru : ℝ) (useHomVal : Bool) {N : ℕ} (hN : 1 ≤ N) :
    Tendsto (fun var => zErrCond var homVal N ru useHomVal) atTop (𝓝 1) := by
  have h1 : ∀ (x : ℝ) (n : ℤ), Tendsto (fun var => exVal x var n) atTop (𝓝 1) := fun x n => by
    unfold exVal
    have : Tendsto (fun var : ℝ => -((x - n * binWidth) ^ 2) / var) atTop (𝓝 0) :=
      tendsto_const_nhds.div_atTop tendsto_id
    have h2 := (Real.continuous_exp.tendsto 0).comp this
    rw [Real.exp_zero] at h2
    exact h2
  set val := if useHomVal then homVal else (gkpBinnerFrac homVal).2
  set factor : ℤ := if useHomVal then 1 - (gkpBinnerFrac homVal).1 else 1
  have hd : Tendsto (fun var => ∑ i ∈ Finset.Ico (-(N : ℤ)) N, exVal val var i) atTop (𝓝 (∑ i ∈ Finset.Ico (-(N : ℤ)) N, 1)) :=
    tendsto_finsetSum _ fun i _ => h1 val i
  have hn : Tendsto (fun var => ∑ i ∈ Finset.Ico (-(N : ℤ)) N, exVal val var (2 * i + factor)) atTop
      (𝓝 (∑ i ∈ Finset.Ico (-(N : ℤ)) N, 1)) := tendsto_finsetSum _ fun i _ => h1 val _
  have hc : (∑ i ∈ Finset.Ico (-(N : ℤ)) N, (1 : ℝ)) ≠ 0 := by
    rw [Finset.sum_const, Int.card_Ico, nsmul_eq_mul, mul_one]
    have : 0 < ((N : ℤ) - -(N : ℤ)).toNat := by omega
    exact_mod_cast this.ne'
  have hq := hn.div hd hc
  rw [div_self hc] at hq
  refine hq.congr fun var => ?_
  unfold zErrCond
  simp only [symRange_sum]
  rw [if_pos]
  · rfl
  · apply ne_of_gt
    apply Finset.sum_pos (fun _ _ => Real.exp_pos _)
    exact ⟨0, by rw [Finset.mem_Ico]; omega⟩

-- the default ten terms and variance one, the outcome 3.2: the error bound is below 10⁻¹⁰⁰
example : |zErrCond 1 3.2 10 0 - errGiven 1 (gkpBinnerFrac 3.2).2| ≤ 3 * Real.exp (-270) := by
  refine le_trans (C63_truncation one_pos 3.2 0 (N := 10) (by norm_num)) ?_
  have h1 : Real.exp (-((10 : ℕ) * ((10 : ℕ) - 1) * Real.pi) / 1) ≤ Real.exp (-270) := by
    apply Real.exp_le_exp.2
    push_cast
    linarith [Real.pi_gt_three]
  have h2 : Real.exp (-(2 * (10 : ℕ) * Real.pi) / 1) ≤ 1 / 3 := by
    have : Real.exp (-(2 * (10 : ℕ) * Real.pi) / 1) ≤ Real.exp (-2) := by
      apply Real.exp_le_exp.2
      push_cast
      linarith [Real.pi_gt_three]
    have h3 : (3 : ℝ) ≤ Real.exp 2 := by have := Real.add_one_le_exp (2 : ℝ); linarith
    rw [Real.exp_neg 2] at this
    refine le_trans this ?_
    rw [one_div]
    exact inv_anti₀ (by norm_num) h3
  rw [div_le_iff₀ (by linarith)]
  nlinarith [Real.exp_pos (-270)]

end Flamingpy.Gkp
