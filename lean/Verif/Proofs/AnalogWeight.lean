import Verif.Props.Weights
import Mathlib.Analysis.Complex.ExponentialBounds

/-!
# Blueprint weights and the position of an outcome in its bin
-/

namespace Flamingpy.Weights

open Flamingpy Flamingpy.SurfaceCode

/-- Specification: how far an outcome is from the edge of its bin, scaled to lie between `0` (on the edge) and `π` (in the centre). -/
noncomputable def centrality (x : ℝ) : ℝ := Real.pi - 2 * √Real.pi * |(Gkp.gkpBinnerFrac x).2|

theorem sqrt_pi_sq : √Real.pi ^ 2 = Real.pi := Real.sq_sqrt Real.pi_pos.le

theorem frac_facts (x : ℝ) : |(Gkp.gkpBinnerFrac x).2| ≤ √Real.pi / 2 ∧
    ∃ n : ℤ, x = n * √Real.pi + (Gkp.gkpBinnerFrac x).2 ∧ Gkp.gkpBinner x = n % 2 := by
  have hb : (0 : ℝ) < Gkp.binWidth := Real.sqrt_pos.mpr Real.pi_pos
  have hf := Gkp.integerFractional_frac x hb
  exact ⟨abs_le.2 ⟨hf.1.le, hf.2⟩, _, Gkp.integerFractional_eq x Gkp.binWidth, rfl⟩

theorem centrality_range (x : ℝ) : 0 ≤ centrality x ∧ centrality x ≤ Real.pi := by
  have h1 := (frac_facts x).1
  have h2 : 0 ≤ √Real.pi := Real.sqrt_nonneg _
  have h3 := abs_nonneg (Gkp.gkpBinnerFrac x).2
  have h4 := sqrt_pi_sq
  unfold centrality
  constructor <;> nlinarith

/-- An outcome is at least as large as its position in the bin, and larger by the distance to the edge if its bit is 1. -/
theorem outcome_sq (x : ℝ) :
    Real.pi ^ 2 + (if Gkp.gkpBinner x = 1 then 2 else -2) * (Real.pi * centrality x) ≤ 4 * Real.pi * x ^ 2 := by
  obtain ⟨h1, n, hn, hb⟩ := frac_facts x
  have hs : 0 < √Real.pi := Real.sqrt_pos.mpr Real.pi_pos
  have hsq := sqrt_pi_sq
  set f := (Gkp.gkpBinnerFrac x).2 with hf
  have hfa := abs_nonneg f
  have hc : centrality x = √Real.pi ^ 2 - 2 * √Real.pi * |f| := by rw [hsq]; rfl
  rw [hc, hb]
  have hx0 : |x| ^ 2 = x ^ 2 := sq_abs x
  have hpi := Real.pi_pos
  -- the size of the outcome
  have key : ∀ k : ℤ, n = k → (n % 2 = 1 → √Real.pi - |f| ≤ |x|) ∧ (n % 2 ≠ 1 → |f| ≤ |x|) := by
    intro k _
    have habs : |(n : ℝ)| * √Real.pi - |f| ≤ |x| := by
      have := abs_sub_abs_le_abs_sub ((n : ℝ) * √Real.pi) (-f)
      rw [abs_mul, abs_of_pos hs, abs_neg, sub_neg_eq_add, ← hn] at this
      exact this
    constructor
    · intro h
      have h0 : (1 : ℤ) ≤ |n| := Int.one_le_abs (by rintro rfl; simp at h)
      have h1 : (1 : ℝ) ≤ |(n : ℝ)| := by exact_mod_cast h0
      nlinarith
    · intro h
      by_cases h0 : n = 0
      · rw [h0] at hn
        simp only [Int.cast_zero, zero_mul, zero_add] at hn
        rw [← hn]
      · have h0 : (1 : ℤ) ≤ |n| := Int.one_le_abs h0
        have h1 : (1 : ℝ) ≤ |(n : ℝ)| := by exact_mod_cast h0
        nlinarith
  obtain ⟨k1, k2⟩ := key n rfl
  generalize hs' : √Real.pi = s at *
  rw [← hx0, ← hsq]
  by_cases h : n % 2 = 1
  · rw [if_pos h]
    have h2 := k1 h
    have h3 : (s - |f|) ^ 2 ≤ |x| ^ 2 := pow_le_pow_left₀ (by linarith) h2 2
    have : s ^ 2 * (s - |f|) ^ 2 ≤ s ^ 2 * |x| ^ 2 := mul_le_mul_of_nonneg_left h3 (by positivity)
    nlinarith [sq_nonneg (s * (s - 2 * |f|)), sq_nonneg (s * |f|)]
  · rw [if_neg h]
    have h3 : |f| ^ 2 ≤ |x| ^ 2 := pow_le_pow_left₀ hfa (k2 h) 2
    have : s ^ 2 * |f| ^ 2 ≤ s ^ 2 * |x| ^ 2 := mul_le_mul_of_nonneg_left h3 (by positivity)
    nlinarith [sq_nonneg (s * (s - 2 * |f|)), sq_nonneg (s * |f|)]

/-- The conditional error probability is, up to a factor 20, the exponential of minus the centrality over the variance. -/
theorem zErrCond_bounds {var : ℝ} (hv : 0 < var) (x : ℝ) :
    Real.exp (-(centrality x / var)) / 20 ≤ Gkp.zErrCond var x ∧ Gkp.zErrCond var x ≤ 20 * Real.exp (-(centrality x / var)) := by
  obtain ⟨h1, -⟩ := frac_facts x
  have hs : 0 < √Real.pi := Real.sqrt_pos.mpr Real.pi_pos
  have hsq := sqrt_pi_sq
  unfold Gkp.zErrCond centrality
  simp only [Bool.false_eq_true, if_false]
  set f := (Gkp.gkpBinnerFrac x).2 with hf
  have hfa := abs_nonneg f
  rw [if_pos (Gkp.den_pos f var 10 (by norm_num)).ne', Gkp.num_eq, Gkp.den_eq]
  set e0 := Real.exp (-(f ^ 2) / var) with he0
  set e1 := Real.exp (-((√Real.pi - |f|) ^ 2) / var) with he1
  have h0 : 0 < e0 := Real.exp_pos _
  have hr : Real.exp (-((Real.pi - 2 * √Real.pi * |f|) / var)) = e1 / e0 := by
    rw [he1, he0, ← Real.exp_sub]
    congr 1
    rw [← sq_abs f]
    field_simp
    ring_nf
    rw [hsq]
    ring
  have hle : ∀ {t : ℝ} {u : ℝ}, 0 ≤ t → t ≤ |u| → Real.exp (-(u ^ 2) / var) ≤ Real.exp (-(t ^ 2) / var) := by
    intro t u ht htu
    have := pow_le_pow_left₀ ht htu 2
    rw [sq_abs] at this
    exact Real.exp_le_exp.2 (by gcongr)
  have hfar : ∀ k : ℤ, |(k : ℝ)| * √Real.pi - |f| ≤ |f - k * √Real.pi| := by
    intro k
    have := abs_sub_abs_le_abs_sub ((k : ℝ) * √Real.pi) f
    rw [abs_mul, abs_of_pos hs, abs_sub_comm] at this
    exact this
  have hfar1 : ∀ k : ℤ, k ≠ 0 → √Real.pi - |f| ≤ |f - k * √Real.pi| := by
    intro k hk
    have h1 : (1 : ℝ) ≤ |(k : ℝ)| := by exact_mod_cast Int.one_le_abs hk
    have := hfar k
    nlinarith
  have hall : ∀ k : ℤ, Gkp.exVal f var k ≤ e0 := by
    intro k
    rw [he0, ← sq_abs f]
    unfold Gkp.exVal
    refine hle hfa ?_
    by_cases hk : k = 0
    · rw [hk]; simp
    · have := hfar1 k hk
      unfold Gkp.binWidth
      linarith
  have hodd : ∀ k : ℤ, k ≠ 0 → Gkp.exVal f var k ≤ e1 := by
    intro k hk
    unfold Gkp.exVal
    exact hle (by linarith) (hfar1 k hk)
  have hden_le : ∑ i ∈ Finset.range (2 * 10), Gkp.exVal f var (-((10 : ℕ) : ℤ) + i) ≤ 20 * e0 := by
    refine (Finset.sum_le_card_nsmul _ _ e0 fun i _ => hall _).trans ?_
    simp
  have hden_ge : e0 ≤ ∑ i ∈ Finset.range (2 * 10), Gkp.exVal f var (-((10 : ℕ) : ℤ) + i) := by
    refine le_trans ?_ (Finset.single_le_sum (f := fun i : ℕ => Gkp.exVal f var (-((10 : ℕ) : ℤ) + i)) (fun i _ => (Gkp.exVal_pos _ _ _).le)
      (show 10 ∈ Finset.range (2 * 10) by decide))
    simp [Gkp.exVal, he0]
  have hnum_le : ∑ i ∈ Finset.range (2 * 10), Gkp.exVal f var ((1 - 2 * ((10 : ℕ) : ℤ)) + 2 * i) ≤ 20 * e1 := by
    refine (Finset.sum_le_card_nsmul _ _ e1 fun i _ => hodd _ (by omega)).trans ?_
    simp
  have hnum_ge : e1 ≤ ∑ i ∈ Finset.range (2 * 10), Gkp.exVal f var ((1 - 2 * ((10 : ℕ) : ℤ)) + 2 * i) := by
    rcases le_total 0 f with h | h
    · refine le_trans ?_ (Finset.single_le_sum (f := fun i : ℕ => Gkp.exVal f var ((1 - 2 * ((10 : ℕ) : ℤ)) + 2 * i))
        (fun i _ => (Gkp.exVal_pos _ _ _).le) (show 10 ∈ Finset.range (2 * 10) by decide))
      simp only [Gkp.exVal, he1, abs_of_nonneg h, Gkp.binWidth]
      refine Real.exp_le_exp.2 (le_of_eq ?_)
      push_cast
      ring
    · refine le_trans ?_ (Finset.single_le_sum (f := fun i : ℕ => Gkp.exVal f var ((1 - 2 * ((10 : ℕ) : ℤ)) + 2 * i))
        (fun i _ => (Gkp.exVal_pos _ _ _).le) (show 9 ∈ Finset.range (2 * 10) by decide))
      simp only [Gkp.exVal, he1, abs_of_nonpos h, Gkp.binWidth]
      refine Real.exp_le_exp.2 (le_of_eq ?_)
      push_cast
      ring
  have h1p : 0 < e1 := Real.exp_pos _
  rw [hr]
  constructor
  · rw [div_div, div_le_div_iff₀ (by positivity) (by linarith)]
    nlinarith
  · rw [mul_div_assoc', div_le_div_iff₀ (by linarith) h0]
    nlinarith

theorem log_20 : Real.log 20 ≤ 3 := by
  rw [Real.log_le_iff_le_exp (by norm_num)]
  have h := Real.exp_one_gt_d9
  have : Real.exp 3 = Real.exp 1 ^ 3 := by rw [← Real.exp_nat_mul]; norm_num
  rw [this]
  have h2 : (2.7182 : ℝ) ^ 3 ≤ Real.exp 1 ^ 3 := pow_le_pow_left₀ (by norm_num) (by linarith) 3
  refine le_trans ?_ h2
  norm_num

theorem pyRound_half (x : ℝ) : |(pyRound x : ℝ) - x| ≤ 1 / 2 := by
  have h1 := Int.floor_le x
  have h2 := Int.lt_floor_add_one x
  unfold pyRound
  split_ifs <;> rw [abs_le] <;> push_cast <;> constructor <;> linarith

/-- Minus the logarithm of the clipped probability is within 3 of the centrality over the variance. -/
theorem log_close {var : ℝ} (hv : 0 < var) (x : ℝ) :
    |-Real.log (clip (Gkp.zErrCond var x)) - centrality x / var| ≤ 3 ∧ 0 ≤ -Real.log (clip (Gkp.zErrCond var x)) := by
  obtain ⟨h1, h2⟩ := zErrCond_bounds hv x
  set p := Gkp.zErrCond var x with hp
  set t := centrality x / var with ht
  have ht0 : 0 ≤ t := div_nonneg (centrality_range x).1 hv.le
  have he := Real.exp_pos (-t)
  have he1 : Real.exp (-t) ≤ 1 := Real.exp_le_one_iff.2 (by linarith)
  have hp0 : 0 < p := lt_of_lt_of_le (by positivity) h1
  have hcl : clip p = min p (1 / 2) := by
    unfold clip
    rw [show (0.5 : ℝ) = 1 / 2 by norm_num]
    rw [if_neg (lt_min hp0 (by norm_num)).ne']
  have hmin0 : 0 < min p (1 / 2) := lt_min hp0 (by norm_num)
  have hlo : Real.exp (-t) / 20 ≤ min p (1 / 2) := le_min h1 (by linarith)
  have hhi : min p (1 / 2) ≤ 20 * Real.exp (-t) := (min_le_left _ _).trans h2
  have hl := log_20
  have l1 : -t - 3 ≤ Real.log (min p (1 / 2)) := by
    have := Real.log_le_log (by positivity) hlo
    rw [Real.log_div he.ne' (by norm_num), Real.log_exp] at this
    linarith
  have l2 : Real.log (min p (1 / 2)) ≤ -t + 3 := by
    have := Real.log_le_log hmin0 hhi
    rw [Real.log_mul (by norm_num) he.ne', Real.log_exp] at this
    linarith
  rw [hcl]
  refine ⟨abs_le.2 ⟨by linarith, by linarith⟩, ?_⟩
  have := Real.log_nonpos hmin0.le ((min_le_right p (1 / 2)).trans (by norm_num))
  linarith

/-- The blueprint weight is within `4 * multiplier` of the multiplier times the centrality over the variance. -/
theorem weight_close {o : Opts} (ho : o.integer = true) (hM : 1 ≤ o.multiplier) {var : ℝ} (hv : 0 < var) (x : ℝ) :
    ∃ W : ℤ, toWeight o (clip (Gkp.zErrCond var x)) = W ∧ |(W : ℝ) - o.multiplier * (centrality x / var)| ≤ 4 * o.multiplier := by
  obtain ⟨hl, -⟩ := log_close hv x
  obtain ⟨l1, l2⟩ := abs_le.1 hl
  set p := clip (Gkp.zErrCond var x) with hp
  refine ⟨pyRound (-o.multiplier * Real.log p), by unfold toWeight; rw [if_pos ho], ?_⟩
  have hr := abs_le.1 (pyRound_half (-o.multiplier * Real.log p))
  rw [abs_le]
  constructor <;> nlinarith [hr.1, hr.2]

end Flamingpy.Weights
