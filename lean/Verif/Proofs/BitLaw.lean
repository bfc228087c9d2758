import Verif.Props.GkpLaw
import Verif.Proofs.GaussSum
import Mathlib.Probability.Independence.CharacteristicFunction
import Mathlib.MeasureTheory.Integral.Marginal

/-! # Bits of independent normal numbers, given their fractional parts -/

namespace Flamingpy.Noise

open MeasureTheory ProbabilityTheory
open scoped NNReal ENNReal

variable {Ω : Type*} [MeasurableSpace Ω] {μ : Measure Ω} {J : Type*} {Z : J → Ω → ℝ}

/-- Linear combinations of disjoint sets of independent normal numbers are independent. -/
theorem NormalIid.block (hZ : NormalIid Z μ) {ι : Type*} [Fintype ι] (a : ι → J → ℝ) (s : ι → Finset J)
    (hs : ∀ i j, i ≠ j → Disjoint (s i) (s j)) : iIndepFun (fun i ω => ∑ j ∈ s i, a i j * Z j ω) μ := by
  classical
  have hprob : IsProbabilityMeasure μ := hZ.indep.isProbabilityMeasure
  have hm : ∀ i, Measurable fun ω => ∑ j ∈ s i, a i j * Z j ω := fun i =>
    Finset.measurable_fun_sum _ fun j _ => (hZ.meas j).const_mul _
  rw [iIndepFun_iff_charFun_pi fun i => (hm i).aemeasurable]
  intro t
  have h1 : charFun (μ.map fun ω => WithLp.toLp 2 fun i => ∑ j ∈ s i, a i j * Z j ω) t =
      charFun (μ.map fun ω => ∑ i, t i * ∑ j ∈ s i, a i j * Z j ω) 1 := by
    rw [charFun_apply, charFun_apply, integral_map, integral_map]
    · congr 1
      funext ω
      simp [PiLp.inner_apply]
    · exact (Finset.measurable_fun_sum _ fun i _ => (hm i).const_mul _).aemeasurable
    · fun_prop
    · exact (by fun_prop : Measurable fun ω => WithLp.toLp 2 fun i => ∑ j ∈ s i, a i j * Z j ω).aemeasurable
    · fun_prop
  have h2 : (fun ω => ∑ i, t i * ∑ j ∈ s i, a i j * Z j ω) = fun ω => ∑ j ∈ Finset.univ.biUnion s,
      (∑ i, if j ∈ s i then t i * a i j else 0) * Z j ω := by
    funext ω
    rw [Finset.sum_biUnion fun i _ j _ hij => hs i j hij]
    refine Finset.sum_congr rfl fun i _ => ?_
    rw [Finset.mul_sum]
    refine Finset.sum_congr rfl fun j hj => ?_
    rw [Finset.sum_eq_single i]
    · rw [if_pos hj]; ring
    · intro k _ hk
      rw [if_neg fun hjk => Finset.disjoint_left.1 (hs k i hk) hjk hj]
    · simp
  rw [h1, h2, hZ.sum]
  have h3 : ∀ i, charFun (μ.map fun ω => ∑ j ∈ s i, a i j * Z j ω) (t i) =
      Complex.exp (-((∑ j ∈ s i, a i j ^ 2 : ℝ) * (t i) ^ 2 / 2)) := by
    intro i
    rw [hZ.sum, charFun_gaussianReal, Real.coe_toNNReal _ (Finset.sum_nonneg fun _ _ => sq_nonneg _)]
    congr 1
    simp
  rw [Finset.prod_congr rfl fun i _ => h3 i, ← Complex.exp_sum, charFun_gaussianReal,
    Real.coe_toNNReal _ (Finset.sum_nonneg fun _ _ => sq_nonneg _)]
  congr 1
  rw [Finset.sum_biUnion fun i _ j _ hij => hs i j hij]
  have h4 : ∀ i, ∑ j ∈ s i, (∑ k, if j ∈ s k then t k * a k j else 0) ^ 2 = (∑ j ∈ s i, a i j ^ 2) * t i ^ 2 := by
    intro i
    rw [Finset.sum_mul]
    refine Finset.sum_congr rfl fun j hj => ?_
    rw [Finset.sum_eq_single i]
    · rw [if_pos hj]; ring
    · intro k _ hk
      rw [if_neg fun hjk => Finset.disjoint_left.1 (hs k i hk) hjk hj]
    · simp
  rw [Finset.sum_congr rfl fun i _ => h4 i]
  push_cast
  simp only [mul_zero, zero_mul, zero_sub, one_pow, mul_one, Finset.sum_neg_distrib, Finset.sum_div]

end Flamingpy.Noise

namespace Flamingpy.Gkp

open MeasureTheory ProbabilityTheory
open scoped NNReal ENNReal

theorem errGiven_nonneg (var f : ℝ) : 0 ≤ errGiven var f := by
  rw [errGiven_eq]
  exact div_nonneg (tsum_nonneg fun _ => exVal_nonneg _ _ _) (tsum_nonneg fun _ => exVal_nonneg _ _ _)

theorem errGiven_le_one {var : ℝ} (hv : 0 < var) (f : ℝ) : errGiven var f ≤ 1 := by
  rw [errGiven_eq]
  have hs := exVal_summable f hv
  refine div_le_one_of_le₀ ?_ (tsum_nonneg fun _ => exVal_nonneg _ _ _)
  exact tsum_comp_le_tsum_of_inj hs (fun k => exVal_nonneg _ _ _) (i := fun k : ℤ => 2 * k + 1) fun a b h => by
    have : 2 * a + 1 = 2 * b + 1 := h
    omega

/-- The fractional part. -/
noncomputable def fracOf (x : ℝ) : ℝ := (gkpBinnerFrac x).2

theorem measurable_fracOf : Measurable fracOf := measurable_binnerFrac.snd

/-- Probability of bit 1 (or 0) given the fractional part. -/
noncomputable def bitWt (var : ℝ) (one : Bool) (f : ℝ) : ℝ≥0∞ :=
  ENNReal.ofReal (if one then errGiven var f else 1 - errGiven var f)

theorem measurable_bitWt {var : ℝ} (hv : 0 < var) (one : Bool) : Measurable (bitWt var one) := by
  unfold bitWt
  cases one with
  | true => simpa using measurable_errGiven hv
  | false =>
    have : (fun f => ENNReal.ofReal (1 - errGiven var f)) = fun f => 1 - ENNReal.ofReal (errGiven var f) := by
      funext f
      rw [ENNReal.ofReal_sub _ (errGiven_nonneg _ _), ENNReal.ofReal_one]
    simp only [Bool.false_eq_true, if_false]
    rw [this]
    exact measurable_const.sub (measurable_errGiven hv)

theorem binner_zero_or_one (x : ℝ) : gkpBinner x = 0 ∨ gkpBinner x = 1 := by
  unfold gkpBinner
  exact Int.emod_two_eq_zero_or_one _

/-- Law of one bit given the fractional part. -/
theorem bit_given {var : ℝ} (hv : 0 < var) (one : Bool) {g : ℝ → ℝ≥0∞} (hg : Measurable g) :
    ∫⁻ x in {x | decide (gkpBinner x = 1) = one}, g (fracOf x) ∂gaussianReal 0 (var / 2).toNNReal =
      ∫⁻ x, bitWt var one (fracOf x) * g (fracOf x) ∂gaussianReal 0 (var / 2).toNNReal := by
  set ν := gaussianReal 0 (var / 2).toNNReal with hν
  have hmb : ∀ b : Bool, MeasurableSet {x | decide (gkpBinner x = 1) = b} := by
    intro b
    have : Measurable fun x => decide (gkpBinner x = 1) := by
      have h1 : Measurable fun n : ℤ => decide (n = 1) := measurable_of_countable _
      exact h1.comp measurable_binner
    exact this (measurableSet_singleton b)
  have hdens : Measurable fun x => bitWt var one (fracOf x) := (measurable_bitWt hv one).comp measurable_fracOf
  have hodd : ∀ A, MeasurableSet A → ν ({x | decide (gkpBinner x = 1) = true} ∩ fracOf ⁻¹' A) =
      ∫⁻ x in fracOf ⁻¹' A, ENNReal.ofReal (errGiven var (fracOf x)) ∂ν := by
    intro A hA
    have h := C63_conditional hv 0 hA
    simp only [Int.cast_zero, zero_mul, zero_add] at h
    rw [show ({x | decide (gkpBinner x = 1) = true} ∩ fracOf ⁻¹' A) =
      {x | gkpBinner x ≠ 0 % 2 ∧ (gkpBinnerFrac x).2 ∈ A} from ?_]
    · exact h
    · ext x
      have := binner_zero_or_one x
      simp only [Set.mem_inter_iff, Set.mem_ofPred_eq, decide_eq_true_eq, Set.mem_preimage, fracOf, Int.zero_emod]
      constructor
      · rintro ⟨h1, h2⟩
        exact ⟨by omega, h2⟩
      · rintro ⟨h1, h2⟩
        exact ⟨by omega, h2⟩
  have hmeas : (ν.restrict {x | decide (gkpBinner x = 1) = one}).map fracOf =
      (ν.withDensity fun x => bitWt var one (fracOf x)).map fracOf := by
    ext A hA
    rw [Measure.map_apply measurable_fracOf hA, Measure.map_apply measurable_fracOf hA,
      Measure.restrict_apply (measurable_fracOf hA), withDensity_apply _ (measurable_fracOf hA), Set.inter_comm]
    cases one with
    | true => rw [hodd A hA]; rfl
    | false =>
      have hsplit : ν (fracOf ⁻¹' A) = ν ({x | decide (gkpBinner x = 1) = true} ∩ fracOf ⁻¹' A) +
          ν ({x | decide (gkpBinner x = 1) = false} ∩ fracOf ⁻¹' A) := by
        rw [← measure_union]
        · congr 1
          ext x
          by_cases h : gkpBinner x = 1 <;> simp [h]
        · rw [Set.disjoint_left]
          rintro x ⟨h1, _⟩ ⟨h2, _⟩
          simp only [Set.mem_ofPred_eq] at h1 h2
          rw [h1] at h2
          cases h2
        · exact (hmb false).inter (measurable_fracOf hA)
      have h1 : ∫⁻ x in fracOf ⁻¹' A, bitWt var true (fracOf x) ∂ν + ∫⁻ x in fracOf ⁻¹' A, bitWt var false (fracOf x) ∂ν =
          ν (fracOf ⁻¹' A) := by
        have hm1 : Measurable fun x => bitWt var true (fracOf x) := (measurable_bitWt hv true).comp measurable_fracOf
        rw [← lintegral_add_left hm1, ← setLIntegral_one]
        congr 1
        funext x
        unfold bitWt
        simp only [if_true, Bool.false_eq_true, if_false]
        rw [← ENNReal.ofReal_add (errGiven_nonneg _ _) (by have := errGiven_le_one hv (fracOf x); linarith)]
        simp
      rw [hodd A hA] at hsplit
      have h2 : ∫⁻ x in fracOf ⁻¹' A, bitWt var true (fracOf x) ∂ν =
        ∫⁻ x in fracOf ⁻¹' A, ENNReal.ofReal (errGiven var (fracOf x)) ∂ν := rfl
      rw [h2, hsplit] at h1
      refine (ENNReal.add_right_inj ?_).1 h1.symm
      rw [← hodd A hA]
      exact measure_ne_top _ _
  calc ∫⁻ x in {x | decide (gkpBinner x = 1) = one}, g (fracOf x) ∂ν
      = ∫⁻ y, g y ∂(ν.restrict {x | decide (gkpBinner x = 1) = one}).map fracOf := (lintegral_map hg measurable_fracOf).symm
    _ = ∫⁻ x, g (fracOf x) ∂(ν.withDensity fun x => bitWt var one (fracOf x)) := by
        rw [hmeas, lintegral_map hg measurable_fracOf]
    _ = _ := by
        have hm1 : Measurable fun x => g (fracOf x) := hg.comp measurable_fracOf
        rw [lintegral_withDensity_eq_lintegral_mul _ hdens hm1]
        rfl

section Pattern

variable {ι : Type*} [Fintype ι]

/-- The indicator of one bit. -/
noncomputable def bitInd (one : Bool) (x : ℝ) : ℝ≥0∞ := if decide (gkpBinner x = 1) = one then 1 else 0

theorem measurable_bitInd (one : Bool) : Measurable (bitInd one) := by
  have h1 : Measurable fun n : ℤ => (if decide (n = 1) = one then 1 else 0 : ℝ≥0∞) := measurable_of_countable _
  exact h1.comp measurable_binner

theorem bit_given' {var : ℝ} (hv : 0 < var) (one : Bool) {g : ℝ → ℝ≥0∞} (hg : Measurable g) :
    ∫⁻ x, bitInd one x * g (fracOf x) ∂gaussianReal 0 (var / 2).toNNReal =
      ∫⁻ x, bitWt var one (fracOf x) * g (fracOf x) ∂gaussianReal 0 (var / 2).toNNReal := by
  classical
  rw [← bit_given hv one hg, ← lintegral_indicator]
  · congr 1
    funext x
    rw [Set.indicator_apply]
    unfold bitInd
    simp only [Set.mem_ofPred_eq]
    split_ifs <;> simp
  · have : Measurable fun x => decide (gkpBinner x = 1) := by
      have h1 : Measurable fun n : ℤ => decide (n = 1) := measurable_of_countable _
      exact h1.comp measurable_binner
    exact this (measurableSet_singleton one)

/-- Law of independent bits given the fractional parts. -/
theorem bits_given {var : ι → ℝ} (hv : ∀ i, 0 < var i) (T : ι → Bool) {g : (ι → ℝ) → ℝ≥0∞} (hg : Measurable g) :
    ∫⁻ x, (∏ i, bitInd (T i) (x i)) * g (fun i => fracOf (x i))
        ∂Measure.pi (fun i => gaussianReal 0 (var i / 2).toNNReal) =
      ∫⁻ x, (∏ i, bitWt (var i) (T i) (fracOf (x i))) * g (fun i => fracOf (x i))
        ∂Measure.pi (fun i => gaussianReal 0 (var i / 2).toNNReal) := by
  classical
  set F : Finset ι → (ι → ℝ) → ℝ≥0∞ := fun s x =>
    (∏ i, if i ∈ s then bitWt (var i) (T i) (fracOf (x i)) else bitInd (T i) (x i)) * g (fun i => fracOf (x i)) with hF
  have hgm : Measurable fun x : ι → ℝ => g fun i => fracOf (x i) :=
    hg.comp (measurable_pi_lambda _ fun i => measurable_fracOf.comp (measurable_pi_apply i))
  have hFm : ∀ s, Measurable (F s) := by
    intro s
    refine Measurable.mul (Finset.measurable_fun_prod _ fun i _ => ?_) hgm
    split_ifs
    · exact ((measurable_bitWt (hv i) _).comp measurable_fracOf).comp (measurable_pi_apply i)
    · exact (measurable_bitInd _).comp (measurable_pi_apply i)
  have key : ∀ s : Finset ι, ∫⁻ x, F s x ∂Measure.pi (fun i => gaussianReal 0 (var i / 2).toNNReal) =
      ∫⁻ x, F ∅ x ∂Measure.pi (fun i => gaussianReal 0 (var i / 2).toNNReal) := by
    intro s
    induction s using Finset.induction_on with
    | empty => rfl
    | insert i s hi ih =>
      rw [← ih]
      refine lintegral_eq_of_lmarginal_eq {i} (hFm _) (hFm _) ?_
      funext x
      rw [lmarginal_singleton, lmarginal_singleton]
      set C : ℝ≥0∞ := ∏ j ∈ Finset.univ.erase i,
        if j ∈ s then bitWt (var j) (T j) (fracOf (x j)) else bitInd (T j) (x j) with hC
      set h : ℝ → ℝ≥0∞ := fun f => C * g (Function.update (fun j => fracOf (x j)) i f) with hh
      have hhm : Measurable h := (hg.comp (measurable_update _)).const_mul C
      have hupd : ∀ y, (fun j => fracOf (Function.update x i y j)) = Function.update (fun j => fracOf (x j)) i (fracOf y) := by
        intro y
        funext j
        by_cases hj : j = i
        · subst hj; simp
        · simp [hj]
      have e1 : ∀ y, F (insert i s) (Function.update x i y) = bitWt (var i) (T i) (fracOf y) * h (fracOf y) := by
        intro y
        simp only [hF, hh]
        rw [hupd, ← Finset.mul_prod_erase _ _ (Finset.mem_univ i), if_pos (Finset.mem_insert_self i s), Function.update_self, mul_assoc]
        congr 2
        rw [hC]
        refine Finset.prod_congr rfl fun j hj => ?_
        have hji := (Finset.mem_erase.1 hj).1
        simp [hji]
      have e2 : ∀ y, F s (Function.update x i y) = bitInd (T i) y * h (fracOf y) := by
        intro y
        simp only [hF, hh]
        rw [hupd, ← Finset.mul_prod_erase _ _ (Finset.mem_univ i), if_neg hi, Function.update_self, mul_assoc]
        congr 2
        rw [hC]
        refine Finset.prod_congr rfl fun j hj => ?_
        have hji := (Finset.mem_erase.1 hj).1
        simp [hji]
      simp only [e1, e2]
      exact (bit_given' (hv i) (T i) hhm).symm
  have h1 := key Finset.univ
  simp only [hF, Finset.mem_univ, if_true, Finset.notMem_empty, if_false] at h1
  exact h1.symm

/-- The probability that an odd number of independent bits is one. -/
theorem odd_sum [DecidableEq ι] (e : ι → ℝ) : ∑ T ∈ Finset.univ.powerset.filter (fun T : Finset ι => Odd T.card),
    ∏ i, (if i ∈ T then e i else 1 - e i) = (1 - ∏ i, (1 - 2 * e i)) / 2 := by
  have h1 : ∑ T ∈ (Finset.univ : Finset ι).powerset, ∏ i, (if i ∈ T then e i else 1 - e i) = 1 := by
    have := Finset.prod_add e (fun i => 1 - e i) Finset.univ
    simp only [add_sub_cancel, Finset.prod_const_one] at this
    refine Eq.trans (Finset.sum_congr rfl fun T hT => ?_) this.symm
    rw [Finset.prod_ite]
    congr 1
    · congr 1; ext i; simp
    · congr 1; ext i; simp
  have h2 : ∑ T ∈ (Finset.univ : Finset ι).powerset, (-1) ^ T.card * ∏ i, (if i ∈ T then e i else 1 - e i) = ∏ i, (1 - 2 * e i) := by
    have := Finset.prod_add (fun i => -e i) (fun i => 1 - e i) Finset.univ
    rw [show (∏ i, (-e i + (1 - e i))) = ∏ i, (1 - 2 * e i) from Finset.prod_congr rfl fun i _ => by ring] at this
    rw [this]
    refine Finset.sum_congr rfl fun T hT => ?_
    rw [Finset.prod_neg, Finset.prod_ite, mul_assoc]
    congr 2
    · congr 1; ext i; simp
    · congr 1; ext i; simp
  have h3 : ∑ T ∈ (Finset.univ : Finset ι).powerset, (if Odd T.card then ∏ i, (if i ∈ T then e i else 1 - e i) else 0) =
      (1 - ∏ i, (1 - 2 * e i)) / 2 := by
    have h4 : (1 - ∏ i, (1 - 2 * e i)) / 2 = ((∑ T ∈ (Finset.univ : Finset ι).powerset,
        ∏ i, (if i ∈ T then e i else 1 - e i)) - ∑ T ∈ (Finset.univ : Finset ι).powerset,
        (-1) ^ T.card * ∏ i, (if i ∈ T then e i else 1 - e i)) / 2 := by rw [h1, h2]
    rw [h4, ← Finset.sum_sub_distrib, Finset.sum_div]
    refine Finset.sum_congr rfl fun T _ => ?_
    split_ifs with h
    · rw [h.neg_one_pow]; ring
    · rw [(Nat.not_odd_iff_even.1 h).neg_one_pow]; ring
  rw [Finset.sum_filter]
  exact h3

end Pattern

end Flamingpy.Gkp

namespace Flamingpy.Gkp

open MeasureTheory ProbabilityTheory
open scoped NNReal ENNReal

variable {ι : Type*} [Fintype ι]

/-- An odd number of the bits is one. -/
def OddBits (x : ι → ℝ) : Prop := Odd (Finset.univ.filter fun i => gkpBinner (x i) = 1).card

/-- The indicator of an odd number of ones, by patterns. -/
theorem odd_indicator [DecidableEq ι] (x : ι → ℝ) [Decidable (OddBits x)] : (if OddBits x then 1 else 0 : ℝ≥0∞) =
    ∑ T ∈ Finset.univ.powerset.filter (fun T : Finset ι => Odd T.card), ∏ i, bitInd (decide (i ∈ T)) (x i) := by
  have hone : ∀ T : Finset ι, ∏ i, bitInd (decide (i ∈ T)) (x i) =
      if T = Finset.univ.filter (fun i => gkpBinner (x i) = 1) then 1 else 0 := by
    intro T
    split_ifs with h
    · refine Finset.prod_eq_one fun i _ => ?_
      unfold bitInd
      rw [if_pos]
      rw [decide_eq_decide, h]
      simp
    · have : ∃ i, ¬ (i ∈ T ↔ gkpBinner (x i) = 1) := by
        by_contra hc
        push Not at hc
        exact h (by ext i; simp [hc i])
      obtain ⟨i, hi⟩ := this
      refine Finset.prod_eq_zero (Finset.mem_univ i) ?_
      unfold bitInd
      rw [if_neg]
      rw [decide_eq_decide]
      exact fun h => hi h.symm
  simp only [hone]
  rw [Finset.sum_ite_eq']
  simp only [OddBits, Finset.mem_filter, Finset.mem_powerset, Finset.subset_univ, true_and]
  congr 1

theorem measurableSet_oddBits : MeasurableSet {x : ι → ℝ | OddBits x} := by
  classical
  have : {x : ι → ℝ | OddBits x} = (fun x : ι → ℝ => ∑ T ∈ Finset.univ.powerset.filter (fun T : Finset ι => Odd T.card),
      ∏ i, bitInd (decide (i ∈ T)) (x i)) ⁻¹' {1} := by
    ext x
    simp only [Set.mem_ofPred_eq, Set.mem_preimage, Set.mem_singleton_iff, ← odd_indicator]
    split_ifs with h <;> simp [h]
  rw [this]
  refine (Finset.measurable_fun_sum _ fun T _ => Finset.measurable_fun_prod _ fun i _ => ?_) (measurableSet_singleton _)
  exact (measurable_bitInd _).comp (measurable_pi_apply i)

/-- The probability that an odd number of bits is one, given the fractional parts. -/
noncomputable def parityGiven (var : ι → ℝ) (f : ι → ℝ) : ℝ := (1 - ∏ i, (1 - 2 * errGiven (var i) (f i))) / 2

/-- An odd number of ones, given the fractional parts. -/
theorem parity_given {var : ι → ℝ} (hv : ∀ i, 0 < var i) {A : Set (ι → ℝ)} (hA : MeasurableSet A) :
    Measure.pi (fun i => gaussianReal 0 (var i / 2).toNNReal) {x | OddBits x ∧ (fun i => fracOf (x i)) ∈ A} =
      ∫⁻ x in {x | (fun i => fracOf (x i)) ∈ A}, ENNReal.ofReal (parityGiven var fun i => fracOf (x i))
        ∂Measure.pi (fun i => gaussianReal 0 (var i / 2).toNNReal) := by
  classical
  set ν := Measure.pi (fun i => gaussianReal 0 (var i / 2).toNNReal) with hν
  have hfm : Measurable fun (x : ι → ℝ) i => fracOf (x i) :=
    measurable_pi_lambda _ fun i => measurable_fracOf.comp (measurable_pi_apply i)
  have hAm : MeasurableSet {x : ι → ℝ | (fun i => fracOf (x i)) ∈ A} := hfm hA
  have hg : Measurable (A.indicator (1 : (ι → ℝ) → ℝ≥0∞)) := measurable_one.indicator hA
  have h1 : ν {x | OddBits x ∧ (fun i => fracOf (x i)) ∈ A} =
      ∫⁻ x, (∑ T ∈ Finset.univ.powerset.filter (fun T : Finset ι => Odd T.card), ∏ i, bitInd (decide (i ∈ T)) (x i)) *
        A.indicator 1 (fun i => fracOf (x i)) ∂ν := by
    have hm : MeasurableSet {x : ι → ℝ | OddBits x ∧ (fun i => fracOf (x i)) ∈ A} := measurableSet_oddBits.inter hAm
    rw [← lintegral_indicator_one hm]
    congr 1
    funext x
    rw [← odd_indicator, Set.indicator_apply, Set.indicator_apply]
    by_cases h1 : OddBits x <;> by_cases h2 : (fun i => fracOf (x i)) ∈ A <;> simp [h1, h2]
  have hm1 : ∀ T : Finset ι, Measurable fun x : ι → ℝ => (∏ i, bitInd (decide (i ∈ T)) (x i)) *
        A.indicator 1 (fun i => fracOf (x i)) := fun T =>
    (Finset.measurable_fun_prod _ fun i _ => (measurable_bitInd _).comp (measurable_pi_apply i)).mul (hg.comp hfm)
  have hm2 : ∀ T : Finset ι, Measurable fun x : ι → ℝ => (∏ i, bitWt (var i) (decide (i ∈ T)) (fracOf (x i))) *
        A.indicator 1 (fun i => fracOf (x i)) := fun T =>
    (Finset.measurable_fun_prod _ fun i _ =>
      ((measurable_bitWt (hv i) _).comp measurable_fracOf).comp (measurable_pi_apply i)).mul (hg.comp hfm)
  rw [h1]
  simp only [Finset.sum_mul]
  rw [lintegral_finsetSum _ fun T _ => hm1 T, Finset.sum_congr rfl fun T _ => bits_given hv (fun i => decide (i ∈ T)) hg,
    ← lintegral_finsetSum _ fun T _ => hm2 T, ← lintegral_indicator hAm]
  congr 1
  funext x
  rw [← Finset.sum_mul, Set.indicator_apply, Set.indicator_apply]
  simp only [Set.mem_ofPred_eq]
  split_ifs with h
  · rw [Pi.one_apply, mul_one, parityGiven, ← odd_sum fun i => errGiven (var i) (fracOf (x i))]
    have hnn : ∀ T : Finset ι, ∀ i, 0 ≤ (if i ∈ T then errGiven (var i) (fracOf (x i)) else 1 - errGiven (var i) (fracOf (x i))) := by
      intro T i
      split_ifs
      · exact errGiven_nonneg _ _
      · have := errGiven_le_one (hv i) (fracOf (x i)); linarith
    rw [ENNReal.ofReal_sum_of_nonneg fun T _ => Finset.prod_nonneg fun i _ => hnn T i]
    refine Finset.sum_congr rfl fun T _ => ?_
    rw [ENNReal.ofReal_prod_of_nonneg fun i _ => hnn T i]
    refine Finset.prod_congr rfl fun i _ => ?_
    unfold bitWt
    simp only [decide_eq_true_eq]
  · rw [mul_zero]

theorem measurable_parityGiven {var : ι → ℝ} (hv : ∀ i, 0 < var i) : Measurable (parityGiven var) := by
  unfold parityGiven
  refine Measurable.div_const (measurable_const.sub (Finset.measurable_fun_prod _ fun i _ => ?_)) _
  have : (fun f => errGiven (var i) f) = fun f => (ENNReal.ofReal (errGiven (var i) f)).toReal := by
    funext f
    rw [ENNReal.toReal_ofReal (errGiven_nonneg _ _)]
  have hm : Measurable fun f => errGiven (var i) f := by
    rw [this]
    exact (measurable_errGiven (hv i)).ennreal_toReal
  exact measurable_const.sub ((hm.comp (measurable_pi_apply i)).const_mul 2)

section Variables

variable {Ω : Type*} [MeasurableSpace Ω] {μ : Measure Ω} {X : ι → Ω → ℝ}

/-- The same for independent variables. -/
theorem parity_given_of_indep {var : ι → ℝ} (hv : ∀ i, 0 < var i) (hX : iIndepFun X μ) (hm : ∀ i, Measurable (X i))
    (hlaw : ∀ i, μ.map (X i) = gaussianReal 0 (var i / 2).toNNReal) {A : Set (ι → ℝ)} (hA : MeasurableSet A) :
    μ {ω | OddBits (fun i => X i ω) ∧ (fun i => fracOf (X i ω)) ∈ A} =
      ∫⁻ ω in {ω | (fun i => fracOf (X i ω)) ∈ A}, ENNReal.ofReal (parityGiven var fun i => fracOf (X i ω)) ∂μ := by
  have hprob : IsProbabilityMeasure μ := hX.isProbabilityMeasure
  have hpi := (iIndepFun_iff_map_fun_eq_pi_map fun i => (hm i).aemeasurable).1 hX
  have hmX : Measurable fun ω i => X i ω := measurable_pi_lambda _ hm
  have hfm : Measurable fun (x : ι → ℝ) i => fracOf (x i) :=
    measurable_pi_lambda _ fun i => measurable_fracOf.comp (measurable_pi_apply i)
  have h := parity_given hv hA
  simp only [← hlaw] at h
  have hA1 : MeasurableSet {x : ι → ℝ | OddBits x ∧ (fun i => fracOf (x i)) ∈ A} := measurableSet_oddBits.inter (hfm hA)
  have hA2 : MeasurableSet {x : ι → ℝ | (fun i => fracOf (x i)) ∈ A} := hfm hA
  have hA3 : Measurable fun x : ι → ℝ => ENNReal.ofReal (parityGiven var fun i => fracOf (x i)) :=
    ((measurable_parityGiven hv).comp hfm).ennreal_ofReal
  rw [← hpi, Measure.map_apply hmX hA1, setLIntegral_map hA2 hA3 hmX] at h
  exact h

/-- The probability of an odd number of ones. -/
theorem parity_law (hX : iIndepFun X μ) (hm : ∀ i, Measurable (X i)) :
    μ.real {ω | OddBits (fun i => X i ω)} = (1 - ∏ i, (1 - 2 * μ.real {ω | gkpBinner (X i ω) = 1})) / 2 := by
  classical
  have hprob : IsProbabilityMeasure μ := hX.isProbabilityMeasure
  have hbm : ∀ b : Bool, MeasurableSet {x : ℝ | decide (gkpBinner x = 1) = b} := by
    intro b
    have : Measurable fun x => decide (gkpBinner x = 1) := by
      have h1 : Measurable fun n : ℤ => decide (n = 1) := measurable_of_countable _
      exact h1.comp measurable_binner
    exact this (measurableSet_singleton b)
  set E : Finset ι → Set Ω := fun T => ⋂ i ∈ (Finset.univ : Finset ι), X i ⁻¹' {x : ℝ | decide (gkpBinner x = 1) = decide (i ∈ T)} with hE
  have hmem : ∀ T ω, ω ∈ E T ↔ T = Finset.univ.filter (fun i => gkpBinner (X i ω) = 1) := by
    intro T ω
    simp only [hE, Set.mem_iInter, Set.mem_preimage, Set.mem_ofPred_eq, decide_eq_decide, Finset.mem_univ, true_implies]
    constructor
    · intro h; ext i; simp [h i]
    · intro h i; rw [h]; simp
  have hset : {ω | OddBits (fun i => X i ω)} = ⋃ T ∈ Finset.univ.powerset.filter (fun T : Finset ι => Odd T.card), E T := by
    ext ω
    simp only [Set.mem_iUnion, hmem, Set.mem_ofPred_eq, OddBits, Finset.mem_filter, Finset.mem_powerset, Finset.subset_univ, true_and]
    constructor
    · intro h; exact ⟨_, h, rfl⟩
    · rintro ⟨T, h, rfl⟩; exact h
  have hEm : ∀ T, MeasurableSet (E T) := fun T => Finset.measurableSet_biInter _ fun i _ => hm i (hbm _)
  rw [hset, measureReal_biUnion_finset _ fun T _ => hEm T, ← odd_sum fun i => μ.real {ω | gkpBinner (X i ω) = 1}]
  · refine Finset.sum_congr rfl fun T _ => ?_
    rw [measureReal_def, hE]
    simp only
    rw [hX.measure_inter_preimage_eq_mul Finset.univ fun i _ => hbm _, ENNReal.toReal_prod]
    refine Finset.prod_congr rfl fun i _ => ?_
    change μ.real (X i ⁻¹' _) = _
    by_cases h : i ∈ T
    · simp only [h, decide_true, if_true, decide_eq_true_eq]; rfl
    · simp only [h, decide_false, if_false, decide_eq_false_iff_not]
      have : X i ⁻¹' {x | ¬ gkpBinner x = 1} = {ω | gkpBinner (X i ω) = 1}ᶜ := rfl
      rw [this, probReal_compl_eq_one_sub]
      exact (measurable_binner.comp (hm i)) (measurableSet_singleton (1 : ℤ))
  · intro T _ T' _ hne
    change Disjoint (E T) (E T')
    rw [Set.disjoint_left]
    intro ω h1 h2
    rw [hmem] at h1 h2
    exact hne (h1.trans h2.symm)

end Variables

end Flamingpy.Gkp
