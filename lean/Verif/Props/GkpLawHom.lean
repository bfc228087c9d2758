import Verif.Props.GkpLaw

/-!
# C63 for `Z_err_cond(..., use_hom_val=True)`

Macronode reduction (`noise/cv.py:607,612`) passes whole outcomes.  The sums then run over the multiples of `√π` between
`-N√π` and `N√π`, whatever the outcome.
-/

namespace Flamingpy.Gkp

/-- C63.  With the whole outcome and `N` terms the value is as good as with `K` terms and the fractional part, for outcomes up to
`(N - K) √π`. -/
theorem C63_truncation_hom {var : ℝ} (hv : 0 < var) (homVal ru : ℝ) {N K : ℕ} (hK : 1 ≤ K) (hKN : K ≤ N)
    (hx : |homVal| ≤ ((N : ℝ) - K) * √Real.pi) :
    |zErrCond var homVal N ru (useHomVal := true) - errGiven var (gkpBinnerFrac homVal).2| ≤
      2 * Real.exp (-(K * (K - 1) * Real.pi) / var) / (1 - Real.exp (-(2 * K * Real.pi) / var)) := by
  set f := (gkpBinnerFrac homVal).2 with hf
  set n := (integerFractional homVal binWidth).1 with hn
  have hfr := integerFractional_frac homVal binWidth_pos
  have hfb : |f| ≤ binWidth / 2 := abs_le.2 ⟨hfr.1.le, hfr.2⟩
  have hxe : homVal = n * binWidth + f := integerFractional_eq homVal binWidth
  have hbit : (gkpBinnerFrac homVal).1 = n % 2 := rfl
  have hw := binWidth_pos
  -- the bin number
  have hnK : (n.natAbs : ℤ) + K ≤ N := by
    by_contra hc
    have h1 : (N : ℤ) - K + 1 ≤ |n| := by rw [Int.abs_eq_natAbs]; omega
    have h2 : (N : ℝ) - K + 1 ≤ |(n : ℝ)| := by
      rw [← Int.cast_abs]
      exact_mod_cast h1
    have h3 : |(n : ℝ)| * binWidth ≤ |homVal| + |f| := by
      rw [show (n : ℝ) = (homVal - f) / binWidth by rw [hxe]; field_simp; ring, abs_div, abs_of_pos hw, div_mul_cancel₀ _ hw.ne']
      exact abs_sub _ _
    have h4 : ((N : ℝ) - K + 1) * binWidth ≤ |(n : ℝ)| * binWidth := mul_le_mul_of_nonneg_right h2 hw.le
    have h5 : |homVal| ≤ ((N : ℝ) - K) * binWidth := hx
    nlinarith
  set g : ℤ → ℝ := fun k => exVal f var k with hg
  have hs : Summable g := exVal_summable f hv
  have hnn : ∀ k, 0 ≤ g k := fun k => exVal_nonneg f var k
  set q := Real.exp (-(K * (K - 1) * Real.pi) / var)
  set ρ := Real.exp (-(2 * K * Real.pi) / var) with hρ
  have hρ1 : ρ < 1 := by
    rw [hρ, Real.exp_lt_one_iff]
    apply div_neg_of_neg_of_pos _ hv
    have : (0 : ℝ) < K := by exact_mod_cast hK
    have := Real.pi_pos
    have : 0 < 2 * (K : ℝ) * Real.pi := by positivity
    linarith
  set h : ℤ → ℝ := fun k => if K ≤ k.natAbs then g k else 0 with hh
  have hh0 : ∀ k, 0 ≤ h k := fun k => by simp only [hh]; split_ifs; exacts [hnn k, le_rfl]
  have hhg : ∀ k, h k ≤ g k := fun k => by simp only [hh]; split_ifs; exacts [le_rfl, hnn k]
  have hhs : Summable h := Summable.of_nonneg_of_le hh0 hhg hs
  set T := ∑' k, h k
  have hT : T ≤ g 0 * (2 * q / (1 - ρ)) := by
    have hb := (tsum_far (Real.exp_pos _).le hρ1 hK q).mul_left (g 0)
    refine hasSum_le (fun k => ?_) hhs.hasSum hb
    simp only [hh]
    split_ifs with hk
    · exact exVal_tail hv hfb K (k.natAbs - K) k (by omega)
    · simp
  have hshift : ∀ k : ℤ, exVal homVal var k = g (k - n) := fun k => by
    simp only [hg, exVal]
    rw [hxe]
    congr 2
    push_cast
    ring
  set num := ∑ i ∈ Finset.Ico (-(N : ℤ)) N, g (2 * i + (1 - n % 2) - n) with hnum
  set den := ∑ i ∈ Finset.Ico (-(N : ℤ)) N, g (i - n) with hden
  have hden0 : g 0 ≤ den := by
    have : g 0 = g (n - n) := by rw [sub_self]
    rw [this]
    exact Finset.single_le_sum (f := fun i => g (i - n)) (fun i _ => hnn _) (by rw [Finset.mem_Ico]; omega)
  have hg0 : 0 < g 0 := Real.exp_pos _
  have hdpos : 0 < den := lt_of_lt_of_le hg0 hden0
  have hz : zErrCond var homVal N ru (useHomVal := true) = num / den := by
    unfold zErrCond
    simp only [symRange_sum, hbit, if_true, hshift]
    rw [if_pos hdpos.ne']
  set O := ∑' k : ℤ, g (2 * k + 1) with hO
  set θ := ∑' k : ℤ, g k with hθ
  have hodd : ∀ i : ℤ, 2 * i + (1 - n % 2) - n = 2 * (i - (n / 2 + n % 2)) + 1 := fun i => by omega
  -- numerator: part of the odd sum
  have hso := summable_odd hs 1
  have hnumO : num ≤ O ∧ O ≤ num + T := by
    have himg : num = ∑ i ∈ (Finset.Ico (-(N : ℤ)) N).image (fun i => i - (n / 2 + n % 2)), g (2 * i + 1) := by
      rw [Finset.sum_image fun a _ b _ hab => by simpa using hab]
      exact Finset.sum_congr rfl fun i _ => by rw [hodd]
    set S := (Finset.Ico (-(N : ℤ)) N).image (fun i => i - (n / 2 + n % 2)) with hS
    rw [himg]
    refine ⟨hso.sum_le_tsum _ fun i _ => hnn _, ?_⟩
    rw [hO, ← hso.sum_add_tsum_subtype_compl S]
    refine add_le_add le_rfl ?_
    have hinj : Function.Injective fun k : {k : ℤ // k ∉ S} => 2 * (k : ℤ) + 1 := fun a b e => by
      apply Subtype.ext
      simp only at e
      omega
    refine le_trans (le_of_eq ?_) (tsum_comp_le_tsum_of_inj hhs hh0 hinj)
    refine tsum_congr fun k => ?_
    have hk := k.2
    simp only [hS, Finset.mem_image, Finset.mem_Ico, not_exists, not_and] at hk
    have hk' := fun h1 => hk (k.1 + (n / 2 + n % 2)) h1
    simp only [hh, Function.comp]
    rw [if_pos]
    by_contra hc
    exact hk' (by omega) (by omega)
  have hdenθ : den ≤ θ ∧ θ ≤ den + T := by
    have himg : den = ∑ i ∈ (Finset.Ico (-(N : ℤ)) N).image (fun i => i - n), g i := by
      rw [Finset.sum_image fun a _ b _ hab => by simpa using hab]
    set S := (Finset.Ico (-(N : ℤ)) N).image (fun i => i - n) with hS
    rw [himg]
    refine ⟨hs.sum_le_tsum _ fun i _ => hnn _, ?_⟩
    rw [hθ, ← hs.sum_add_tsum_subtype_compl S]
    refine add_le_add le_rfl ?_
    refine le_trans (le_of_eq ?_) (tsum_comp_le_tsum_of_inj hhs hh0 (Subtype.val_injective (p := fun k => k ∉ S)))
    refine tsum_congr fun k => ?_
    have hk := k.2
    simp only [hS, Finset.mem_image, Finset.mem_Ico, not_exists, not_and] at hk
    have hk' := fun h1 => hk (k.1 + n) h1
    simp only [hh, Function.comp]
    rw [if_pos]
    by_contra hc
    exact hk' (by omega) (by omega)
  have hθpos : 0 < θ := theta_pos f hv
  have hOθ : O ≤ θ := tsum_comp_le_tsum_of_inj hs hnn (i := fun k : ℤ => 2 * k + 1) fun a b e => by
    have : 2 * a + 1 = 2 * b + 1 := e
    omega
  have hnum0 : 0 ≤ num := Finset.sum_nonneg fun i _ => hnn _
  have hT0 : 0 ≤ T := tsum_nonneg hh0
  set B := 2 * q / (1 - ρ) with hB
  have hTB : T ≤ den * B := by
    have hr : 0 ≤ B := div_nonneg (by positivity) (by linarith)
    exact hT.trans (mul_le_mul_of_nonneg_right hden0 hr)
  rw [hz, errGiven_eq]
  change |num / den - O / θ| ≤ B
  have hO0 : 0 ≤ O := hnum0.trans hnumO.1
  rw [abs_le]
  constructor
  · have h1 : num / θ ≤ num / den := div_le_div_of_nonneg_left hnum0 hdpos hdenθ.1
    have h2 : (O - T) / θ ≤ num / θ := div_le_div_of_nonneg_right (by linarith [hnumO.2]) hθpos.le
    have h3 : T / θ ≤ B := by
      rw [div_le_iff₀ hθpos]
      have hr : 0 ≤ B := div_nonneg (by positivity) (by linarith)
      nlinarith [hdenθ.1]
    rw [sub_div] at h2
    linarith
  · have h1 : num / den ≤ O / den := div_le_div_of_nonneg_right hnumO.1 hdpos.le
    have h2 : O / den - O / θ ≤ T / den := by
      rw [div_sub_div _ _ hdpos.ne' hθpos.ne', div_le_div_iff₀ (mul_pos hdpos hθpos) hdpos]
      have : O * θ - den * O ≤ θ * T := by
        have e : O * θ - den * O = O * (θ - den) := by ring
        rw [e]
        exact mul_le_mul hOθ (by linarith [hdenθ.2]) (by linarith [hdenθ.1]) hθpos.le
      nlinarith
    have h3 : T / den ≤ B := by
      rw [div_le_iff₀ hdpos]
      linarith
    linarith

-- ten terms: outcomes up to 4√π are treated as well as by six terms around the nearest multiple
example (var : ℝ) (hv : 0 < var) (x : ℝ) (hx : |x| ≤ 4 * √Real.pi) :
    |zErrCond var x (useHomVal := true) - errGiven var (gkpBinnerFrac x).2| ≤
      2 * Real.exp (-(30 * Real.pi) / var) / (1 - Real.exp (-(12 * Real.pi) / var)) := by
  have := C63_truncation_hom hv x 0 (N := 10) (K := 6) (by norm_num) (by norm_num) (by norm_num; exact hx)
  convert this using 3 <;> norm_num

end Flamingpy.Gkp
