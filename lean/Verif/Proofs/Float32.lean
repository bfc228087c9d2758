import Verif.Model.Lemon
import Mathlib.Tactic.Linarith
import Mathlib.Tactic.NormNum
import Mathlib.Tactic.Positivity
import Mathlib.Tactic.FieldSimp
import Mathlib.Tactic.NormNum.NatLog
import Mathlib.Tactic.NormNum.Parity

/-!
# Rounding to single precision
-/

namespace Flamingpy.SurfaceCode

theorem roundEven_err (x : ℚ) : |(roundEven x : ℚ) - x| ≤ 1 / 2 := by
  have h1 := Int.floor_le x
  have h2 := Int.lt_floor_add_one x
  unfold roundEven
  split_ifs with h3 h4 h5 <;> rw [abs_le] <;> push_cast <;> constructor <;> linarith

theorem roundEven_int (n : ℤ) : roundEven n = n := by
  unfold roundEven
  rw [Int.floor_intCast, if_pos (by norm_num)]

theorem float32_err (x : ℚ) : |float32 x - x| ≤ |x| / 2 ^ 24 := by
  unfold float32
  split_ifs with h0
  · subst h0; simp
  · have hx : (0 : ℚ) < |x| := abs_pos.2 h0
    set e := Int.log 2 |x|
    have hu : (0 : ℚ) < 2 ^ (e - 23) := zpow_pos (by norm_num) _
    have hle : ((2 : ℕ) : ℚ) ^ e ≤ |x| := Int.zpow_log_le_self (by norm_num) hx
    have h1 := roundEven_err (x / 2 ^ (e - 23))
    have h2 : (roundEven (x / 2 ^ (e - 23)) : ℚ) * 2 ^ (e - 23) - x =
        ((roundEven (x / 2 ^ (e - 23)) : ℚ) - x / 2 ^ (e - 23)) * 2 ^ (e - 23) := by
      field_simp
    simp only
    rw [h2, abs_mul, abs_of_pos hu]
    have h3 : (2 : ℚ) ^ e = 2 ^ (e - 23) * 2 ^ 23 := by
      rw [← zpow_natCast, ← zpow_add₀ (by norm_num)]
      congr 1
      norm_num
    push_cast at hle
    rw [h3] at hle
    calc _ ≤ 1 / 2 * (2 : ℚ) ^ (e - 23) := by gcongr
      _ ≤ |x| / 2 ^ 24 := by
        rw [le_div_iff₀ (by norm_num)]
        linarith

theorem float32_int {n : ℤ} (hn : |n| ≤ 2 ^ 24) : float32 n = n := by
  unfold float32
  split_ifs with h0
  · exact h0.symm
  · have hx : (0 : ℚ) < |(n : ℚ)| := abs_pos.2 h0
    set e := Int.log 2 |(n : ℚ)| with hedef
    have hle : ((2 : ℕ) : ℚ) ^ e ≤ |(n : ℚ)| := Int.zpow_log_le_self (by norm_num) hx
    push_cast at hle
    have h1 : |(n : ℚ)| ≤ 2 ^ (24 : ℤ) := by
      have : ((|n| : ℤ) : ℚ) ≤ ((2 ^ 24 : ℤ) : ℚ) := by exact_mod_cast hn
      rw [Int.cast_abs] at this
      refine this.trans (le_of_eq ?_)
      rw [show (24 : ℤ) = ((24 : ℕ) : ℤ) from rfl, zpow_natCast]
      norm_num
    have he : e ≤ 24 := (zpow_le_zpow_iff_right₀ (by norm_num : (1 : ℚ) < 2)).1 (hle.trans h1)
    have hu : (2 : ℚ) ^ (e - 23) ≠ 0 := (zpow_pos (by norm_num) _).ne'
    obtain ⟨m, hm⟩ : ∃ m : ℤ, (n : ℚ) / 2 ^ (e - 23) = m := by
      rcases eq_or_lt_of_le he with he | he
      · rw [he] at hle ⊢
        have h2 := le_antisymm h1 hle
        have h3 : (2 : ℚ) ^ (24 : ℤ) = 2 ^ 24 := by
          rw [show (24 : ℤ) = ((24 : ℕ) : ℤ) from rfl, zpow_natCast]
        have h4 : (2 : ℚ) ^ ((24 : ℤ) - 23) = 2 := by norm_num
        rw [h3] at h2
        rw [h4]
        rcases abs_cases (n : ℚ) with ⟨h5, _⟩ | ⟨h5, _⟩
        · exact ⟨2 ^ 23, by rw [← h5, h2]; norm_num⟩
        · refine ⟨-2 ^ 23, ?_⟩
          have : (n : ℚ) = -2 ^ 24 := by linarith
          rw [this]; norm_num
      · obtain ⟨k, hk⟩ : ∃ k : ℕ, 23 - e = k := ⟨(23 - e).toNat, by omega⟩
        refine ⟨n * 2 ^ k, ?_⟩
        rw [show e - 23 = -(k : ℤ) by omega, zpow_neg, zpow_natCast, div_inv_eq_mul]
        push_cast
        rfl
    simp only
    rw [hm, roundEven_int, ← hm]
    field_simp

theorem float32_nonpos {x : ℚ} (hx : x ≤ 0) : float32 x ≤ 0 := by
  have h := float32_err x
  rw [abs_le, abs_of_nonpos hx] at h
  have := h.2
  have : -x / 2 ^ 24 ≤ -x := by
    rw [div_le_iff₀ (by norm_num)]
    have : 0 ≤ -x := by linarith
    nlinarith
  linarith

theorem float32_tie : float32 (-(2 ^ 24 + 1)) = -2 ^ 24 := by
  have h1 : Int.log 2 |(-(2 ^ 24 + 1) : ℚ)| = 24 := by
    have : |(-(2 ^ 24 + 1) : ℚ)| = ((2 ^ 24 + 1 : ℕ) : ℚ) := by rw [abs_neg]; norm_num
    rw [this, Int.log_natCast]
    norm_num
  unfold float32
  rw [if_neg (by norm_num)]
  simp only [h1]
  have h2 : (-(2 ^ 24 + 1) : ℚ) / 2 ^ ((24 : ℤ) - 23) = -8388608.5 := by norm_num
  have h3 : ⌊(-8388608.5 : ℚ)⌋ = -8388609 := by rw [Int.floor_eq_iff]; norm_num
  have h4 : roundEven (-8388608.5) = -8388608 := by
    unfold roundEven
    rw [h3, if_neg (by norm_num), if_neg (by norm_num), if_neg (by decide)]
    norm_num
  rw [h2, h4]
  norm_num

end Flamingpy.SurfaceCode
