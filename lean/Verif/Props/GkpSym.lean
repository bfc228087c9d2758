import Verif.Props.Gkp

/-!
# C102: shifts and reflections of outcomes
-/

namespace Flamingpy.Gkp

/-- Fraction and bit of an outcome in a given bin. -/
theorem frac_of {x f : ℝ} {n : ℤ} (hx : x = n * √Real.pi + f) (h1 : -(√Real.pi / 2) < f) (h2 : f ≤ √Real.pi / 2) :
    (gkpBinnerFrac x).2 = f ∧ gkpBinner x = n % 2 := by
  have h := integerFractional_unique (x := x) binWidth_pos n f hx h1 h2
  unfold gkpBinner gkpBinnerFrac
  rw [h]
  exact ⟨rfl, rfl⟩

/-- The fraction does not change if the outcome moves by a multiple of `√π`. -/
theorem frac_shift (x : ℝ) (n : ℤ) : (gkpBinnerFrac (x + n * √Real.pi)).2 = (gkpBinnerFrac x).2 := by
  have hf := integerFractional_frac x binWidth_pos
  have he := integerFractional_eq x binWidth
  set k := (integerFractional x binWidth).1
  set f := (integerFractional x binWidth).2 with hfd
  have e1 := (frac_of (x := x) (n := k) (f := f) he hf.1 hf.2).1
  have e2 := (frac_of (x := x + n * √Real.pi) (n := k + n) (f := f)
    (by conv_lhs => rw [he]
        change _ * √Real.pi + _ + _ = _; push_cast; ring) hf.1 hf.2).1
  rw [e1, e2]

/-- The value depends on the fraction only. -/
theorem zErrCond_frac {var x y : ℝ} {varNum : ℕ} {ru : ℝ} (h : (gkpBinnerFrac x).2 = (gkpBinnerFrac y).2) :
    zErrCond var x varNum ru = zErrCond var y varNum ru := by
  unfold zErrCond
  simp only [Bool.false_eq_true, if_false, h]

/-- C102.  The conditional error probability does not change if the outcome moves by a multiple of `√π`. -/
theorem C102_shift (var x : ℝ) (varNum : ℕ) (ru : ℝ) (n : ℤ) : zErrCond var (x + n * √Real.pi) varNum ru = zErrCond var x varNum ru :=
  zErrCond_frac (frac_shift x n)

/-- C102.  The bit of the negative of an outcome is the same, except on the edges of the bins, where it is the other one. -/
theorem C102_bit (x : ℝ) : ((∀ n : ℤ, x ≠ n * √Real.pi + √Real.pi / 2) → gkpBinner (-x) = gkpBinner x) ∧
    ∀ n : ℤ, x = n * √Real.pi + √Real.pi / 2 → gkpBinner (-x) = 1 - gkpBinner x := by
  have hb : (0 : ℝ) < √Real.pi := Real.sqrt_pos.mpr Real.pi_pos
  constructor
  · intro hne
    have hf := integerFractional_frac x (show (0 : ℝ) < binWidth from hb)
    have he := integerFractional_eq x binWidth
    set k := (integerFractional x binWidth).1 with hk
    set f := (integerFractional x binWidth).2 with hfd
    have hlt : f < √Real.pi / 2 := lt_of_le_of_ne hf.2 fun e => hne k (by rw [he, e]; rfl)
    have h1 := (frac_of (x := x) (n := k) (f := f) he hf.1 hf.2).2
    have h2 := (frac_of (x := -x) (n := -k) (f := -f) (by rw [he]; change -(_ * √Real.pi + _) = _; push_cast; ring) (by linarith)
      (by have := hf.1; change -(√Real.pi / 2) < f at this; linarith)).2
    rw [h1, h2]
    omega
  · intro n hn
    have h1 := (frac_of (x := x) (n := n) (f := √Real.pi / 2) hn (by linarith) le_rfl).2
    have h2 := (frac_of (x := -x) (n := -n - 1) (f := √Real.pi / 2) (by rw [hn]; push_cast; ring) (by linarith) le_rfl).2
    rw [h1, h2]
    omega

theorem num_reflect (f var : ℝ) (N : ℕ) : ∑ i ∈ Finset.range (2 * N), exVal (-f) var ((1 - 2 * (N : ℤ)) + 2 * i) =
    ∑ i ∈ Finset.range (2 * N), exVal f var ((1 - 2 * (N : ℤ)) + 2 * i) := by
  rw [← Finset.sum_range_reflect]
  refine Finset.sum_congr rfl fun i hi => ?_
  have hi := Finset.mem_range.1 hi
  unfold exVal
  have : (((2 * N - 1 - i : ℕ) : ℤ) : ℝ) = 2 * N - 1 - i := by
    rw [show ((2 * N - 1 - i : ℕ) : ℤ) = 2 * N - 1 - i by omega]
    push_cast
    ring
  push_cast at this ⊢
  rw [this]
  congr 3
  ring

theorem den_reflect (f var : ℝ) {N : ℕ} (hN : 0 < N) : ∑ i ∈ Finset.range (2 * N), exVal (-f) var (-(N : ℤ) + i) =
    ∑ i ∈ Finset.range (2 * N), exVal f var (-(N : ℤ) + i) + exVal f var N - exVal f var (-(N : ℤ)) := by
  obtain ⟨m, hm⟩ : ∃ m, 2 * N = m + 1 := ⟨2 * N - 1, by omega⟩
  have h1 : ∑ i ∈ Finset.range (2 * N), exVal f var (-(N : ℤ) + i) =
      ∑ i ∈ Finset.range m, exVal f var (-(N : ℤ) + (i + 1)) + exVal f var (-(N : ℤ)) := by
    rw [hm, Finset.sum_range_succ']
    simp
  have h2 : ∑ i ∈ Finset.range (2 * N), exVal (-f) var (-(N : ℤ) + i) =
      ∑ i ∈ Finset.range m, exVal (-f) var (-(N : ℤ) + (i + 1)) + exVal (-f) var (-(N : ℤ)) := by
    rw [hm, Finset.sum_range_succ']
    simp
  have hneg : ∀ k : ℤ, exVal (-f) var k = exVal f var (-k) := fun k => by
    unfold exVal
    push_cast
    congr 3
    ring
  rw [h1, h2, hneg (-(N : ℤ)), neg_neg]
  have : ∑ i ∈ Finset.range m, exVal (-f) var (-(N : ℤ) + (i + 1)) = ∑ i ∈ Finset.range m, exVal f var (-(N : ℤ) + (i + 1)) := by
    rw [← Finset.sum_range_reflect]
    refine Finset.sum_congr rfl fun i hi => ?_
    have hi := Finset.mem_range.1 hi
    rw [hneg]
    congr 1
    omega
  rw [this]
  ring

/-- C102.  The conditional error probability is not symmetric: a positive fraction gives a larger value than the negative one, because the
denominator has a term more on one side.  The ratio is at most `1 + exp(-(N² - N) π / var)` for `N = var_num`. -/
theorem C102_reflect {var x f : ℝ} (hv : 0 < var) {N : ℕ} (hN : 0 < N) (ru : ℝ) {n : ℤ} (hx : x = n * √Real.pi + f) (h0 : 0 < f)
    (h1 : f < √Real.pi / 2) :
    zErrCond var (-x) N ru < zErrCond var x N ru ∧
      zErrCond var x N ru ≤ zErrCond var (-x) N ru * (1 + Real.exp (-((N : ℝ) ^ 2 - N) * Real.pi / var)) := by
  have hb : (0 : ℝ) < √Real.pi := Real.sqrt_pos.mpr Real.pi_pos
  have hsq : √Real.pi ^ 2 = Real.pi := Real.sq_sqrt Real.pi_pos.le
  have e1 := (frac_of (x := x) hx (by linarith) h1.le).1
  have e2 := (frac_of (x := -x) (n := -n) (f := -f) (by rw [hx]; push_cast; ring) (by linarith) (by linarith)).1
  have hd1 := den_pos f var N hN
  have hd2 := den_pos (-f) var N hN
  unfold zErrCond
  simp only [Bool.false_eq_true, if_false, e1, e2]
  rw [if_pos hd1.ne', if_pos hd2.ne']
  rw [den_eq] at hd1 hd2
  rw [num_eq, num_eq, den_eq, den_eq, num_reflect]
  have hr := den_reflect f var hN
  have hN1 : (1 : ℝ) ≤ N := by exact_mod_cast hN
  have hnum : 0 < ∑ i ∈ Finset.range (2 * N), exVal f var ((1 - 2 * (N : ℤ)) + 2 * i) :=
    Finset.sum_pos (fun i _ => exVal_pos _ _ _) ⟨0, Finset.mem_range.mpr (by omega)⟩
  have hge : exVal f var 0 ≤ ∑ i ∈ Finset.range (2 * N), exVal f var (-(N : ℤ) + i) := by
    have := Finset.single_le_sum (f := fun i : ℕ => exVal f var (-(N : ℤ) + i)) (fun i _ => (exVal_pos _ _ _).le)
      (show N ∈ Finset.range (2 * N) by rw [Finset.mem_range]; omega)
    simpa using this
  set D := ∑ i ∈ Finset.range (2 * N), exVal f var (-(N : ℤ) + i)
  set D' := ∑ i ∈ Finset.range (2 * N), exVal (-f) var (-(N : ℤ) + i)
  set A := ∑ i ∈ Finset.range (2 * N), exVal f var ((1 - 2 * (N : ℤ)) + 2 * i)
  have hlt : exVal f var (-(N : ℤ)) < exVal f var N := by
    unfold exVal binWidth
    push_cast
    refine Real.exp_lt_exp.2 ?_
    refine div_lt_div_of_pos_right ?_ hv
    have : 0 < f * (N * √Real.pi) := by positivity
    nlinarith
  have hratio : exVal f var N ≤ exVal f var 0 * Real.exp (-((N : ℝ) ^ 2 - N) * Real.pi / var) := by
    unfold exVal binWidth
    rw [← Real.exp_add]
    refine Real.exp_le_exp.2 ?_
    rw [← add_div]
    refine div_le_div_of_nonneg_right ?_ hv.le
    push_cast
    have : f * (N * √Real.pi) ≤ √Real.pi / 2 * (N * √Real.pi) := mul_le_mul_of_nonneg_right h1.le (by positivity)
    nlinarith
  have hneg := exVal_pos f var (-(N : ℤ))
  have hexp := Real.exp_pos (-((N : ℝ) ^ 2 - N) * Real.pi / var)
  constructor
  · exact div_lt_div_of_pos_left hnum hd1 (by linarith)
  · rw [div_mul_eq_mul_div, div_le_div_iff₀ hd1 hd2, mul_assoc]
    refine mul_le_mul_of_nonneg_left ?_ hnum.le
    rw [hr]
    nlinarith

/-- C102.  In the centre and on the edge of a bin the value is symmetric. -/
theorem C102_symmetric {var x : ℝ} {N : ℕ} {ru : ℝ} {n : ℤ} (hx : x = n * √Real.pi ∨ x = n * √Real.pi + √Real.pi / 2) :
    zErrCond var (-x) N ru = zErrCond var x N ru := by
  have hb : (0 : ℝ) < √Real.pi := Real.sqrt_pos.mpr Real.pi_pos
  apply zErrCond_frac
  rcases hx with hx | hx
  · rw [(frac_of (x := x) (n := n) (f := 0) (by rw [hx, add_zero]) (by linarith) (by linarith)).1,
      (frac_of (x := -x) (n := -n) (f := 0) (by rw [hx]; push_cast; ring) (by linarith) (by linarith)).1]
  · rw [(frac_of (x := x) (n := n) hx (by linarith) le_rfl).1,
      (frac_of (x := -x) (n := -n - 1) (f := √Real.pi / 2) (by rw [hx]; push_cast; ring) (by linarith) le_rfl).1]

-- the default number of terms and an outcome of one third of a bin
example : zErrCond 1 (-(√Real.pi / 3)) < zErrCond 1 (√Real.pi / 3) := by
  have hb : (0 : ℝ) < √Real.pi := Real.sqrt_pos.mpr Real.pi_pos
  exact (C102_reflect one_pos (N := 10) (by norm_num) 0 (n := 0) (f := √Real.pi / 3) (by simp) (by linarith) (by linarith)).1

end Flamingpy.Gkp
