import Verif.Proofs.Gkp

/-! # Properties of `flamingpy/cv/gkp.py` (C01-C05) -/

namespace Flamingpy.Gkp

/-! ## C01 -/

/-- C01: `integer_fractional(x, alpha)` returns an integer `n` and `f` with
`x = n*alpha + f` and `|f| ≤ alpha/2`; a pair with `|f| < alpha/2` is the only one. -/
theorem C01_integer_fractional (x alpha : ℝ) (h : 0 < alpha) :
    x = (integerFractional x alpha).1 * alpha + (integerFractional x alpha).2 ∧
    |(integerFractional x alpha).2| ≤ alpha / 2 ∧
    ∀ (n : ℤ) (f : ℝ), x = n * alpha + f → |f| < alpha / 2 → integerFractional x alpha = (n, f) := by
  have hf := integerFractional_frac x h
  refine ⟨integerFractional_eq x alpha, abs_le.mpr ⟨hf.1.le, hf.2⟩, ?_⟩
  intro n f hx hlt
  have := abs_lt.mp hlt
  exact integerFractional_unique h n f hx this.1 this.2.le

/-- C01, tie-breaking: the fraction is never `-alpha/2`, so ties round down. -/
theorem C01_integer_fractional_tie (n : ℤ) (alpha : ℝ) (h : 0 < alpha) :
    integerFractional (n * alpha + alpha / 2) alpha = (n, alpha / 2) :=
  integerFractional_unique h n (alpha / 2) rfl (by linarith) le_rfl

example : integerFractional (7 / 4) 1 = (2, -1 / 4) :=
  (C01_integer_fractional (7 / 4) 1 one_pos).2.2 2 (-1 / 4) (by norm_num)
    (by rw [abs_of_neg] <;> norm_num)

/-! ## C02 -/

/-- C02: `GKP_binner` is 0 on every open even bin and 1 on every open odd bin. -/
theorem C02_bins (x : ℝ) (k : ℤ) :
    ((2 * k - 1 / 2) * √Real.pi < x → x < (2 * k + 1 / 2) * √Real.pi → gkpBinner x = 0) ∧
    ((2 * k + 1 / 2) * √Real.pi < x → x < (2 * k + 3 / 2) * √Real.pi → gkpBinner x = 1) := by
  constructor
  · intro h1 h2
    have := gkpBinner_of_decomp (2 * k) (x - 2 * k * binWidth)
      (by unfold binWidth; linarith) (by unfold binWidth; linarith)
    push_cast at this
    rw [show (2 * k * binWidth + (x - 2 * k * binWidth) : ℝ) = x by ring] at this
    rw [this]; omega
  · intro h1 h2
    have := gkpBinner_of_decomp (2 * k + 1) (x - (2 * k + 1) * binWidth)
      (by unfold binWidth; linarith) (by unfold binWidth; linarith)
    push_cast at this
    rw [show ((2 * k + 1) * binWidth + (x - (2 * k + 1) * binWidth) : ℝ) = x by ring] at this
    rw [this]; omega

/-- C02: the result is always a bit, is `2√π`-periodic, and flips under a shift by `√π`. -/
theorem C02_bit_periodic_flip (x : ℝ) (k : ℤ) :
    (gkpBinner x = 0 ∨ gkpBinner x = 1) ∧
    gkpBinner (x + k * (2 * √Real.pi)) = gkpBinner x ∧
    gkpBinner (x + √Real.pi) = 1 - gkpBinner x := by
  have hx := integerFractional_eq x binWidth
  have hf := integerFractional_frac x binWidth_pos
  set n := (integerFractional x binWidth).1 with hn
  set f := (integerFractional x binWidth).2
  have h0 : gkpBinner x = n % 2 := rfl
  refine ⟨by rw [h0]; omega, ?_, ?_⟩
  · have := gkpBinner_of_decomp (n + 2 * k) f hf.1 hf.2
    rw [show (x + k * (2 * √Real.pi) : ℝ) = ((n + 2 * k : ℤ) : ℝ) * binWidth + f by
      rw [hx]; unfold binWidth; push_cast; ring, this, h0]
    omega
  · have := gkpBinner_of_decomp (n + 1) f hf.1 hf.2
    rw [show (x + √Real.pi : ℝ) = ((n + 1 : ℤ) : ℝ) * binWidth + f by
      rw [hx]; unfold binWidth; push_cast; ring, this, h0]
    omega

/-- C02: the fraction returned with `return_fraction=True` is the signed distance to the nearest
multiple `n√π`, whose parity is the bit, and the bit does not depend on the flag. -/
theorem C02_return_fraction (x : ℝ) :
    (gkpBinnerFrac x).1 = gkpBinner x ∧
    (∃ n : ℤ, x = n * √Real.pi + (gkpBinnerFrac x).2 ∧ gkpBinner x = n % 2) ∧
    ∀ n : ℤ, |(gkpBinnerFrac x).2| ≤ |x - n * √Real.pi| := by
  refine ⟨rfl, ⟨_, integerFractional_eq x binWidth, rfl⟩, ?_⟩
  intro n
  have hx := integerFractional_eq x binWidth
  have hf := integerFractional_frac x binWidth_pos
  have hb := binWidth_pos
  change |(integerFractional x binWidth).2| ≤ |x - n * binWidth|
  set m := (integerFractional x binWidth).1
  set f := (integerFractional x binWidth).2
  have e : x - n * binWidth = (m - n : ℤ) * binWidth + f := by rw [hx]; push_cast; ring
  rw [e]
  rcases lt_trichotomy (m - n) 0 with h | h | h
  · have : ((m - n : ℤ) : ℝ) ≤ -1 := by exact_mod_cast (by omega : m - n ≤ -1)
    rw [abs_of_nonpos (by nlinarith : ((m - n : ℤ) : ℝ) * binWidth + f ≤ 0)]
    rw [abs_le]; constructor <;> nlinarith
  · rw [h]; simp
  · have : (1 : ℝ) ≤ ((m - n : ℤ) : ℝ) := by exact_mod_cast (by omega : 1 ≤ m - n)
    rw [abs_of_nonneg (by nlinarith : 0 ≤ ((m - n : ℤ) : ℝ) * binWidth + f)]
    rw [abs_le]; constructor <;> nlinarith

example : gkpBinner (3 * √Real.pi) = 1 := by
  have h : 0 < √Real.pi := Real.sqrt_pos.mpr Real.pi_pos
  exact (C02_bins (3 * √Real.pi) 1).2 (by push_cast; linarith) (by push_cast; linarith)

/-! ## C03 -/

/-- C03 refuted: the docstring's "values on the boundary are binned to 0" fails at the
edge between bins 1 and 2 (and at every second edge). -/
theorem C03_boundary_to_zero_false :
    ¬ ∀ n : ℤ, gkpBinner (n * √Real.pi + √Real.pi / 2) = 0 := by
  intro h
  have h1 := h 1
  have := gkpBinner_of_decomp 1 (binWidth / 2) (by linarith [binWidth_pos]) le_rfl
  change gkpBinner ((1 : ℤ) * binWidth + binWidth / 2) = 0 at h1
  rw [this] at h1
  omega

/-- C03, what the code does on edges: the edge above bin `n` belongs to bin `n`. -/
theorem C03_boundary_partial (n : ℤ) : gkpBinner (n * √Real.pi + √Real.pi / 2) = n % 2 :=
  gkpBinner_of_decomp n (binWidth / 2) (by linarith [binWidth_pos]) le_rfl

/-! ## C04 -/

/-- C04: with `use_hom_val=False` (the default), `Z_err_cond` is a probability for every
homodyne value, every positive variance and every positive number of terms. -/
theorem C04_probability (var homVal : ℝ) (varNum : ℕ) (ru : ℝ) (hv : 0 < var) (hn : 0 < varNum) :
    0 ≤ zErrCond var homVal varNum ru ∧ zErrCond var homVal varNum ru ≤ 1 := by
  have hf := integerFractional_frac homVal binWidth_pos
  have habs : |(integerFractional homVal binWidth).2| ≤ binWidth / 2 :=
    abs_le.mpr ⟨hf.1.le, hf.2⟩
  have hd := den_pos (integerFractional homVal binWidth).2 var varNum hn
  have hr := ratio_le_one (integerFractional homVal binWidth).2 (integerFractional homVal binWidth).2
    0 hv (by push_cast; ring) habs 1 (by omega) varNum (by omega) (by omega)
  have hp := num_nonneg (integerFractional homVal binWidth).2 var varNum 1
  unfold zErrCond gkpBinnerFrac
  simp only [Bool.false_eq_true, if_false]
  rw [if_pos hd.ne']
  exact ⟨div_nonneg hp hd.le, (div_le_one hd).mpr hr⟩

/-- C04, the value: with `use_hom_val=False` it is the Gaussian weight, seen from the fractional part of the
outcome, of the odd multiples of `√π` between `-2·var_num` and `2·var_num` over the weight of all multiples in
`[-var_num, var_num)`. -/
theorem C04_value (var homVal : ℝ) (varNum : ℕ) (ru : ℝ) (hn : 0 < varNum) (n : ℤ) (f : ℝ)
    (hx : homVal = n * √Real.pi + f) (hf : |f| < √Real.pi / 2) :
    zErrCond var homVal varNum ru =
      (∑ k ∈ (Finset.Ioo (-(2 * varNum : ℤ)) (2 * varNum)).filter (fun k => k % 2 = 1),
        Real.exp (-(f - k * √Real.pi) ^ 2 / var)) /
      ∑ k ∈ Finset.Ico (-(varNum : ℤ)) varNum, Real.exp (-(f - k * √Real.pi) ^ 2 / var) := by
  have hdec := (C01_integer_fractional homVal binWidth binWidth_pos).2.2 n f hx hf
  have hd := den_pos f var varNum hn
  unfold zErrCond gkpBinnerFrac
  simp only [hdec, Bool.false_eq_true, if_false]
  rw [if_pos hd.ne', num_eq, den_eq]
  congr 1
  · refine Finset.sum_bij (fun i _ => (1 - 2 * (varNum : ℤ)) + 2 * (i : ℤ)) ?_ ?_ ?_ ?_
    · intro i hi
      simp only [Finset.mem_range, Finset.mem_filter, Finset.mem_Ioo] at *
      omega
    · intro i _ j _ h; omega
    · intro k hk
      simp only [Finset.mem_filter, Finset.mem_Ioo] at hk
      refine ⟨((k + 2 * varNum - 1) / 2).toNat, ?_, ?_⟩
      · simp only [Finset.mem_range]; omega
      · omega
    · intro i _; rfl
  · refine Finset.sum_bij (fun i _ => -(varNum : ℤ) + (i : ℤ)) ?_ ?_ ?_ ?_
    · intro i hi
      simp only [Finset.mem_range, Finset.mem_Ico] at *
      omega
    · intro i _ j _ h; omega
    · intro k hk
      simp only [Finset.mem_Ico] at hk
      refine ⟨(k + varNum).toNat, ?_, ?_⟩
      · simp only [Finset.mem_range]; omega
      · omega
    · intro i _; rfl

/-- C04, the value with `use_hom_val=True`: the weights are seen from the whole outcome, and the numerator runs over the
`2·var_num` multiples, starting at `-2·var_num` or the next one, whose parity is the opposite of the bit. -/
theorem C04_value_use_hom_val (var homVal : ℝ) (varNum : ℕ) (ru : ℝ) (hn : 0 < varNum) :
    zErrCond var homVal varNum ru true =
      (∑ k ∈ (Finset.Ico (-(2 * varNum : ℤ)) (2 * varNum)).filter (fun k => k % 2 = 1 - gkpBinner homVal),
        Real.exp (-(homVal - k * √Real.pi) ^ 2 / var)) /
      ∑ k ∈ Finset.Ico (-(varNum : ℤ)) varNum, Real.exp (-(homVal - k * √Real.pi) ^ 2 / var) := by
  have hd := den_pos homVal var varNum hn
  have hbit : gkpBinner homVal = 0 ∨ gkpBinner homVal = 1 := (C02_bit_periodic_flip homVal 0).1
  have hbf : (gkpBinnerFrac homVal).1 = gkpBinner homVal := rfl
  unfold zErrCond
  simp only [if_true, hbf]
  generalize gkpBinner homVal = b at *
  rw [if_pos hd.ne', num_eq, den_eq]
  congr 1
  · refine Finset.sum_bij (fun i _ => (1 - b - 2 * (varNum : ℤ)) + 2 * (i : ℤ)) ?_ ?_ ?_ ?_
    · intro i hi
      simp only [Finset.mem_range, Finset.mem_filter, Finset.mem_Ico] at *
      omega
    · intro i _ j _ h; omega
    · intro k hk
      simp only [Finset.mem_filter, Finset.mem_Ico] at hk
      refine ⟨((k + 2 * varNum) / 2).toNat, ?_, ?_⟩
      · simp only [Finset.mem_range]; omega
      · omega
    · intro i _; rfl
  · refine Finset.sum_bij (fun i _ => -(varNum : ℤ) + (i : ℤ)) ?_ ?_ ?_ ?_
    · intro i hi
      simp only [Finset.mem_range, Finset.mem_Ico] at *
      omega
    · intro i _ j _ h; omega
    · intro k hk
      simp only [Finset.mem_Ico] at hk
      refine ⟨(k + varNum).toNat, ?_, ?_⟩
      · simp only [Finset.mem_range]; omega
      · omega
    · intro i _; rfl

/-- C04: with `use_hom_val=True` it is a probability as long as the bin number of the
homodyne value lies in the summation window `[-var_num, var_num)`. -/
theorem C04_use_hom_val_partial (var homVal : ℝ) (varNum : ℕ) (ru : ℝ) (hv : 0 < var)
    (n : ℤ) (hn : |homVal - n * √Real.pi| < √Real.pi / 2)
    (hlo : -(varNum : ℤ) ≤ n) (hhi : n < varNum) :
    0 ≤ zErrCond var homVal varNum ru true ∧ zErrCond var homVal varNum ru true ≤ 1 := by
  have hdec := (C01_integer_fractional homVal binWidth binWidth_pos).2.2 n (homVal - n * binWidth)
    (by ring) hn
  have hpos : 0 < varNum := by omega
  have hd := den_pos homVal var varNum hpos
  have hr := ratio_le_one homVal (homVal - n * binWidth) n hv (by ring) hn.le (1 - n % 2)
    (by omega) varNum hlo hhi
  have hp := num_nonneg homVal var varNum (1 - n % 2)
  unfold zErrCond gkpBinnerFrac
  simp only [hdec, if_true]
  rw [if_pos hd.ne']
  exact ⟨div_nonneg hp hd.le, (div_le_one hd).mpr hr⟩

/-- C04 refuted for `use_hom_val=True` outside the window: with the default 10 terms the
value 15√π and unit variance gives a "probability" above 1. -/
theorem C04_use_hom_val_false : 1 < zErrCond 1 (15 * √Real.pi) 10 0 true := by
  have hb := binWidth_pos
  have hdec := (C01_integer_fractional (15 * √Real.pi) binWidth hb).2.2 15 0
    (by unfold binWidth; push_cast; ring) (by simp; exact hb)
  have hd := den_pos (15 * √Real.pi) 1 10 (by norm_num)
  have hsq : binWidth ^ 2 = Real.pi := Real.sq_sqrt Real.pi_pos.le
  unfold zErrCond gkpBinnerFrac
  simp only [hdec, if_true]
  rw [if_pos hd.ne', lt_div_iff₀ hd, one_mul, num_eq, den_eq]
  -- one numerator term beats the whole denominator
  have h1 : ∑ i ∈ Finset.range (2 * 10), exVal (15 * √Real.pi) 1 (-((10 : ℕ) : ℤ) + i)
      ≤ ∑ _i ∈ Finset.range (2 * 10), Real.exp (-36 * Real.pi) := by
    apply Finset.sum_le_sum
    intro i hi
    rw [Finset.mem_range] at hi
    unfold exVal
    apply Real.exp_le_exp.mpr
    have hi' : (i : ℝ) ≤ 19 := by exact_mod_cast (by omega : i ≤ 19)
    have : (15 * √Real.pi - ((-((10 : ℕ) : ℤ) + (i : ℤ) : ℤ) : ℝ) * binWidth)
        = (25 - i) * binWidth := by unfold binWidth; push_cast; ring
    rw [this, mul_pow, hsq, div_one]
    have h36 : (36 : ℝ) ≤ (25 - i) ^ 2 := by nlinarith
    nlinarith [Real.pi_pos]
  have h2 : Real.exp (-Real.pi) ≤
      ∑ i ∈ Finset.range (2 * 10), exVal (15 * √Real.pi) 1 ((1 - 15 % 2 - 2 * ((10 : ℕ) : ℤ)) + 2 * i) := by
    refine le_trans (le_of_eq ?_) (Finset.single_le_sum (f := fun i : ℕ =>
      exVal (15 * √Real.pi) 1 ((1 - 15 % 2 - 2 * ((10 : ℕ) : ℤ)) + 2 * i))
      (fun i _ => (exVal_pos _ _ _).le) (Finset.mem_range.mpr (by norm_num : 18 < 2 * 10)))
    unfold exVal
    have : (15 * √Real.pi - ((1 - 15 % 2 - 2 * ((10 : ℕ) : ℤ) + 2 * ((18 : ℕ) : ℤ) : ℤ) : ℝ) * binWidth)
        = - binWidth := by
      have e : (1 - 15 % 2 - 2 * ((10 : ℕ) : ℤ) + 2 * ((18 : ℕ) : ℤ) : ℤ) = 16 := by norm_num
      rw [e]; unfold binWidth; push_cast; ring
    rw [this, neg_sq, hsq, div_one]
  refine lt_of_le_of_lt h1 (lt_of_lt_of_le ?_ h2)
  rw [Finset.sum_const, Finset.card_range, nsmul_eq_mul]
  have h3 : Real.exp (-Real.pi) = Real.exp (35 * Real.pi) * Real.exp (-36 * Real.pi) := by
    rw [← Real.exp_add]; congr 1; ring
  rw [h3]
  have h4 : (20 : ℝ) < Real.exp (35 * Real.pi) := by
    have := Real.add_one_le_exp (35 * Real.pi)
    have := Real.pi_gt_three
    linarith
  have := Real.exp_pos (-36 * Real.pi)
  push_cast
  nlinarith

example : (0 : ℝ) < 1 ∧ 0 < 10 ∧ |(15 : ℝ) * √Real.pi - (15 : ℤ) * √Real.pi| < √Real.pi / 2 := by
  refine ⟨one_pos, by norm_num, ?_⟩
  have : 0 < √Real.pi := Real.sqrt_pos.mpr Real.pi_pos
  simp only [Int.cast_ofNat, sub_self, abs_zero]; linarith

/-! ## C05 -/

/-- C05: for every positive variance in the array and every `var_num ≥ 0`, the entry of
`Z_err` is one minus the Gaussian mass (density `exp(-(t/v)²)/(v√π)`) of the `0` bins
`[(2k-1/2)√π, (2k+1/2)√π]`, `k = -m..m`, where `m` depends on the largest variance only. -/
theorem C05_mass (varMax varNum v : ℝ) (hv : 0 < v) (hm : 0 ≤ varMax) (hn : 0 ≤ varNum) :
    zErrEntry erf varMax varNum v =
      1 - ∑ k ∈ Finset.Icc (-(⌈varNum * varMax⌉ / 2)) (⌈varNum * varMax⌉ / 2),
        ∫ t in ((2 * k - 1 / 2) * √Real.pi)..((2 * k + 1 / 2) * √Real.pi),
          Real.exp (-(t / v) ^ 2) / (v * √Real.pi) := by
  have h0 : 0 ≤ ⌈varNum * varMax⌉ / 2 := by
    have : 0 ≤ ⌈varNum * varMax⌉ := Int.ceil_nonneg (mul_nonneg hn hm)
    omega
  rw [zErrEntry_eq erf varMax varNum v h0]
  congr 1
  apply Finset.sum_congr rfl
  intro k _
  rw [gauss_mass v hv]

/-- C05: `Z_err` has one entry per variance, in order, and the set of bins is that of the largest variance `M`. -/
theorem C05_entries (v : ℝ) (vs : List ℝ) (varNum M : ℝ) (hpos : ∀ w ∈ v :: vs, 0 < w) (hn : 0 ≤ varNum)
    (hM : IsGreatest {w | w ∈ v :: vs} M) :
    zErr erf v vs varNum = (v :: vs).map fun w =>
      1 - ∑ k ∈ Finset.Icc (-(⌈varNum * M⌉ / 2)) (⌈varNum * M⌉ / 2),
        ∫ t in ((2 * k - 1 / 2) * √Real.pi)..((2 * k + 1 / 2) * √Real.pi),
          Real.exp (-(t / w) ^ 2) / (w * √Real.pi) := by
  have hmax : vs.foldl max v = M := by
    apply le_antisymm
    · exact hM.2 (foldl_max_mem v vs)
    · exact le_foldl_max_of_mem v vs M hM.1
  unfold zErr
  rw [hmax]
  apply List.map_congr_left
  intro w hw
  exact C05_mass M varNum w (hpos w hw) (hpos M hM.1).le hn

example : IsGreatest {w | w ∈ (0.1 : ℝ) :: [0.5, 2]} 2 := by
  constructor
  · simp
  · intro w hw; simp at hw; rcases hw with rfl | rfl | rfl <;> norm_num

/-- C05: every entry of `Z_err` is a probability. -/
theorem C05_probability (v : ℝ) (vs : List ℝ) (varNum : ℝ)
    (hpos : ∀ w ∈ v :: vs, 0 < w) (hn : 0 ≤ varNum) :
    ∀ e ∈ zErr erf v vs varNum, 0 ≤ e ∧ e ≤ 1 := by
  intro e he
  unfold zErr at he
  rw [List.mem_map] at he
  obtain ⟨w, hw, rfl⟩ := he
  have hmax : 0 ≤ vs.foldl max v :=
    (hpos v (by simp)).le.trans (le_foldl_max v vs)
  have h0 : 0 ≤ ⌈varNum * vs.foldl max v⌉ / 2 := by
    have : 0 ≤ ⌈varNum * vs.foldl max v⌉ := Int.ceil_nonneg (mul_nonneg hn hmax)
    omega
  exact zErrEntry_mem erf erf_monotone erf_abs_le _ _ w (hpos w hw) h0

example : ∀ w ∈ (0.1 : ℝ) :: [0.5, 2], 0 < w := by
  intro w hw; simp at hw; rcases hw with rfl | rfl | rfl <;> norm_num

end Flamingpy.Gkp
