import Verif.Model.Gkp
import Mathlib.Analysis.SpecialFunctions.Gaussian.GaussianIntegral
import Mathlib.Order.Interval.Finset.Basic
import Mathlib.Data.Int.Interval
import Mathlib.Tactic.Linarith
import Mathlib.Tactic.Ring
import Mathlib.Tactic.FieldSimp
import Mathlib.Tactic.Positivity
import Mathlib.Algebra.BigOperators.Intervals
import Mathlib.Algebra.Order.BigOperators.Group.Finset

/-! Helper lemmas for `Props/Gkp`. -/

namespace Flamingpy.Gkp

theorem binWidth_pos : 0 < binWidth := Real.sqrt_pos.mpr Real.pi_pos

theorem divmod_bounds (x : ℝ) {alpha : ℝ} (h : 0 < alpha) :
    0 ≤ (divmod x alpha).2 ∧ (divmod x alpha).2 < alpha := by
  unfold divmod
  have h1 := Int.floor_le (x / alpha)
  have h2 := Int.lt_floor_add_one (x / alpha)
  rw [le_div_iff₀ h] at h1
  rw [div_lt_iff₀ h] at h2
  constructor <;> simp only <;> nlinarith

theorem integerFractional_eq (x alpha : ℝ) :
    x = (integerFractional x alpha).1 * alpha + (integerFractional x alpha).2 := by
  unfold integerFractional divmod
  push_cast
  ring

/-- The fractional part lies in `(-alpha/2, alpha/2]`. -/
theorem integerFractional_frac (x : ℝ) {alpha : ℝ} (h : 0 < alpha) :
    -(alpha / 2) < (integerFractional x alpha).2 ∧ (integerFractional x alpha).2 ≤ alpha / 2 := by
  have hb := divmod_bounds x h
  unfold integerFractional
  by_cases hc : (divmod x alpha).2 > alpha / 2
  · simp only [hc, if_true]; push_cast; constructor <;> linarith [hb.1, hb.2]
  · simp only [hc, if_false]; push_cast; constructor <;> linarith [hb.1, hb.2, not_lt.mp hc]

/-- Characterisation: the result is the only decomposition with fraction in `(-alpha/2, alpha/2]`. -/
theorem integerFractional_unique {x alpha : ℝ} (h : 0 < alpha) (n : ℤ) (f : ℝ)
    (hx : x = n * alpha + f) (h1 : -(alpha / 2) < f) (h2 : f ≤ alpha / 2) :
    integerFractional x alpha = (n, f) := by
  have he := integerFractional_eq x alpha
  have hf := integerFractional_frac x h
  set m := (integerFractional x alpha).1
  set g := (integerFractional x alpha).2
  have key : ((m : ℝ) - n) * alpha = f - g := by linarith
  have hlt : ((m : ℝ) - n) < 1 := by
    by_contra hcon
    push Not at hcon
    nlinarith
  have hgt : -1 < ((m : ℝ) - n) := by
    by_contra hcon
    push Not at hcon
    nlinarith
  have hmn : m = n := by
    have a : m - n < 1 := by exact_mod_cast hlt
    have b : -1 < m - n := by exact_mod_cast hgt
    omega
  have hgf : g = f := by rw [hmn] at key; linarith
  exact Prod.ext hmn hgf

theorem gkpBinner_of_decomp (n : ℤ) (f : ℝ)
    (h1 : -(binWidth / 2) < f) (h2 : f ≤ binWidth / 2) :
    gkpBinner (n * binWidth + f) = n % 2 := by
  unfold gkpBinner
  rw [integerFractional_unique binWidth_pos n f rfl h1 h2]

/-! ### Sums in `Z_err_cond` -/

theorem list_sum_range (n : ℕ) (f : ℕ → ℝ) :
    ((List.range n).map f).sum = ∑ i ∈ Finset.range n, f i := by
  induction n with
  | zero => simp
  | succ n ih => simp [List.range_succ, Finset.sum_range_succ, ih]

/-- Envelope: value at rank `k`. -/
noncomputable def env (f var : ℝ) (k : ℕ) : ℝ :=
  Real.exp (-((k * binWidth + |f|) ^ 2) / var)

theorem env_antitone (f : ℝ) {var : ℝ} (hv : 0 < var) : Antitone (env f var) := by
  intro a b hab
  unfold env
  apply Real.exp_le_exp.mpr
  apply div_le_div_of_nonneg_right _ hv.le
  have hb := binWidth_pos
  have : (a : ℝ) ≤ b := by exact_mod_cast hab
  have h0 : 0 ≤ (a : ℝ) * binWidth + |f| := by positivity
  have h1 : (a : ℝ) * binWidth + |f| ≤ b * binWidth + |f| := by nlinarith
  nlinarith

theorem sum_antitone_le (h : ℕ → ℝ) (ha : Antitone h) (R : Finset ℕ) :
    ∑ r ∈ R, h r ≤ ∑ k ∈ Finset.range R.card, h k := by
  induction R using Finset.strongInduction with
  | H R ih =>
    rcases R.eq_empty_or_nonempty with rfl | hne
    · simp
    · set m := R.max' hne
      have hm : m ∈ R := R.max'_mem hne
      have hcard : R.card = (R.erase m).card + 1 := by
        rw [Finset.card_erase_of_mem hm]; have := Finset.card_pos.mpr hne; omega
      rw [← Finset.sum_erase_add R h hm, hcard, Finset.sum_range_succ]
      have hle : (R.erase m).card ≤ m := by
        have : R.erase m ⊆ Finset.range m := by
          intro x hx
          rw [Finset.mem_erase] at hx
          exact Finset.mem_range.mpr (lt_of_le_of_ne (R.le_max' x hx.2) hx.1)
        simpa using Finset.card_le_card this
      have := ih (R.erase m) (Finset.erase_ssubset hm)
      have := ha hle
      linarith

/-- Lower bound for the denominator: an interval of offsets around the closest bin. -/
theorem den_lower (val f : ℝ) (n0 : ℤ) {var : ℝ} (hv : 0 < var) (hval : val = n0 * binWidth + f)
    (a b : ℕ) :
    ∑ k ∈ Finset.range (a + b + 1), env f var k ≤
      ∑ i ∈ Finset.range (a + b + 1), exVal val var (n0 - a + i) := by
  have hb := binWidth_pos
  have ha' := env_antitone f hv
  have key : ∀ (t : ℤ) (k : ℕ), |t| ≤ k → env f var k ≤ exVal val var (n0 + t) := by
    intro t k htk
    unfold env exVal
    apply Real.exp_le_exp.mpr
    apply div_le_div_of_nonneg_right _ hv.le
    rw [neg_le_neg_iff]
    have h1 : (val - ((n0 + t : ℤ) : ℝ) * binWidth) = f - t * binWidth := by
      rw [hval]; push_cast; ring
    rw [h1, ← sq_abs (f - _)]
    apply pow_le_pow_left₀ (abs_nonneg _)
    have h2 : |(t : ℝ)| ≤ k := by exact_mod_cast htk
    calc |f - t * binWidth| ≤ |f| + |(t : ℝ) * binWidth| := abs_sub _ _
      _ = |f| + |(t : ℝ)| * binWidth := by rw [abs_mul, abs_of_pos hb]
      _ ≤ _ := by nlinarith
  induction b with
  | zero =>
    induction a with
    | zero =>
      simpa using key 0 0 (by simp)
    | succ a ih =>
      have hn : a + 1 + 0 + 1 = (a + 0 + 1) + 1 := by ring
      rw [hn, Finset.sum_range_succ (fun k => env f var k),
        Finset.sum_range_succ' (fun i : ℕ => exVal val var (n0 - ((a + 1 : ℕ) : ℤ) + (i : ℤ)))]
      have h := key (-((a : ℤ) + 1)) (a + 1) (by rw [abs_neg]; rw [abs_of_nonneg (by omega)]; push_cast; rfl)
      have e : (fun i : ℕ => exVal val var (n0 - ((a + 1 : ℕ) : ℤ) + ((i + 1 : ℕ) : ℤ)))
          = fun i : ℕ => exVal val var (n0 - (a : ℤ) + (i : ℤ)) := by
        funext i; congr 1; push_cast; ring
      simp only [e]
      have e2 : n0 - ((a + 1 : ℕ) : ℤ) + ((0 : ℕ) : ℤ) = n0 + -((a : ℤ) + 1) := by push_cast; ring
      rw [e2]
      linarith
  | succ b ih =>
    have hh : a + (b + 1) + 1 = (a + b + 1) + 1 := by ring
    rw [hh, Finset.sum_range_succ (fun k => env f var k),
      Finset.sum_range_succ (fun i : ℕ => exVal val var (n0 - (a : ℤ) + (i : ℤ)))]
    have h := key ((b : ℤ) + 1) (a + b + 1) (by rw [abs_of_nonneg (by omega)]; push_cast; omega)
    have e2 : n0 - (a : ℤ) + ((a + b + 1 : ℕ) : ℤ) = n0 + ((b : ℤ) + 1) := by push_cast; ring
    rw [e2]
    linarith

/-- Upper bound for the numerator: offsets from the closest bin are odd and distinct. -/
theorem num_upper (val f : ℝ) (n0 : ℤ) {var : ℝ} (hv : 0 < var) (hval : val = n0 * binWidth + f)
    (hf : |f| ≤ binWidth / 2) (s : ℤ) (hs : (s - n0) % 2 = 1) (K : ℕ) :
    ∑ i ∈ Finset.range K, exVal val var (s + 2 * (i : ℤ)) ≤ ∑ k ∈ Finset.range K, env f var k := by
  have hb := binWidth_pos
  let g : ℕ → ℤ := fun i => s + 2 * i - n0
  let rank : ℕ → ℕ := fun i =>
    if (0 ≤ f ∧ 0 < g i) ∨ (f < 0 ∧ g i < 0) then (g i).natAbs - 1 else (g i).natAbs
  have hodd : ∀ i, g i % 2 = 1 := by intro i; simp only [g]; omega
  have hne : ∀ i, g i ≠ 0 := by intro i h; have := hodd i; omega
  have inj : Function.Injective rank := by
    intro i j hij
    have h1 := hodd i
    have h2 := hodd j
    simp only [rank] at hij
    have : g i = g j := by
      by_cases hf0 : 0 ≤ f
      · have hf1 : ¬ f < 0 := not_lt.mpr hf0
        simp only [hf0, hf1, true_and, false_and, or_false] at hij
        split_ifs at hij <;> omega
      · have hf1 : f < 0 := not_le.mp hf0
        simp only [hf0, hf1, true_and, false_and, false_or] at hij
        split_ifs at hij <;> omega
    simp only [g] at this
    omega
  have le1 : ∀ i : ℕ, exVal val var (s + 2 * (i : ℤ)) ≤ env f var (rank i) := by
    intro i
    unfold env exVal
    apply Real.exp_le_exp.mpr
    apply div_le_div_of_nonneg_right _ hv.le
    rw [neg_le_neg_iff]
    have e1 : (val - ((s + 2 * (i : ℤ) : ℤ) : ℝ) * binWidth) = f - (g i : ℝ) * binWidth := by
      rw [hval]; simp only [g]; push_cast; ring
    rw [e1, ← sq_abs (f - _)]
    apply pow_le_pow_left₀ (by positivity)
    have hnat : ∀ z : ℤ, z ≠ 0 → ((z.natAbs - 1 : ℕ) : ℝ) = |(z : ℝ)| - 1 := by
      intro z hz
      have : 1 ≤ z.natAbs := by omega
      rw [Nat.cast_sub this, Nat.cast_natAbs]; push_cast; ring
    have hnat0 : ∀ z : ℤ, ((z.natAbs : ℕ) : ℝ) = |(z : ℝ)| := by
      intro z; rw [Nat.cast_natAbs]; push_cast; ring
    have habs := abs_le.mp hf
    simp only [rank]
    rcases lt_or_gt_of_ne (hne i) with hg | hg
    · have hg' : (g i : ℝ) ≤ -1 := by exact_mod_cast (by omega : g i ≤ -1)
      have hpos : 0 ≤ f - (g i : ℝ) * binWidth := by nlinarith
      rw [abs_of_nonneg hpos]
      by_cases hf0 : 0 ≤ f
      · have c : ¬((0 ≤ f ∧ 0 < g i) ∨ (f < 0 ∧ g i < 0)) := by
          rintro (⟨_, h⟩ | ⟨h, _⟩); omega; linarith
        rw [if_neg c, hnat0, abs_of_neg (by linarith : (g i : ℝ) < 0), abs_of_nonneg hf0]; linarith
      · push Not at hf0
        have c : ((0 ≤ f ∧ 0 < g i) ∨ (f < 0 ∧ g i < 0)) := Or.inr ⟨hf0, hg⟩
        rw [if_pos c, hnat _ (hne i), abs_of_neg (by linarith : (g i : ℝ) < 0), abs_of_neg hf0]
        nlinarith
    · have hg' : (1 : ℝ) ≤ (g i : ℝ) := by exact_mod_cast (by omega : 1 ≤ g i)
      have hpos : f - (g i : ℝ) * binWidth ≤ 0 := by nlinarith
      rw [abs_of_nonpos hpos]
      by_cases hf0 : 0 ≤ f
      · have c : ((0 ≤ f ∧ 0 < g i) ∨ (f < 0 ∧ g i < 0)) := Or.inl ⟨hf0, hg⟩
        rw [if_pos c, hnat _ (hne i), abs_of_pos (by linarith : (0 : ℝ) < (g i : ℝ)), abs_of_nonneg hf0]
        nlinarith
      · push Not at hf0
        have c : ¬((0 ≤ f ∧ 0 < g i) ∨ (f < 0 ∧ g i < 0)) := by
          rintro (⟨h, _⟩ | ⟨_, h⟩); linarith; omega
        rw [if_neg c, hnat0, abs_of_pos (by linarith : (0 : ℝ) < (g i : ℝ)), abs_of_neg hf0]; linarith
  calc ∑ i ∈ Finset.range K, exVal val var (s + 2 * (i : ℤ))
      ≤ ∑ i ∈ Finset.range K, env f var (rank i) := Finset.sum_le_sum fun i _ => le1 i
    _ = ∑ r ∈ (Finset.range K).image rank, env f var r := by
        rw [Finset.sum_image]; intro a _ b _ h; exact inj h
    _ ≤ ∑ k ∈ Finset.range ((Finset.range K).image rank).card, env f var k :=
        sum_antitone_le _ (env_antitone f hv) _
    _ = _ := by rw [Finset.card_image_of_injective _ inj, Finset.card_range]

theorem exVal_pos (val var : ℝ) (n : ℤ) : 0 < exVal val var n := Real.exp_pos _

theorem num_eq (val var : ℝ) (nMax : ℕ) (factor : ℤ) :
    ((symRange nMax).map fun i => exVal val var (2 * i + factor)).sum =
      ∑ i ∈ Finset.range (2 * nMax), exVal val var ((factor - 2 * nMax) + 2 * i) := by
  unfold symRange
  rw [List.map_map, list_sum_range]
  apply Finset.sum_congr rfl
  intro i _
  simp only [Function.comp]
  congr 1; ring

theorem den_eq (val var : ℝ) (nMax : ℕ) :
    ((symRange nMax).map fun i => exVal val var i).sum =
      ∑ i ∈ Finset.range (2 * nMax), exVal val var (-nMax + i) := by
  unfold symRange
  rw [List.map_map, list_sum_range]
  apply Finset.sum_congr rfl
  intro i _
  simp only [Function.comp]
  congr 1; ring

theorem ratio_le_one (val f : ℝ) (n0 : ℤ) {var : ℝ} (hv : 0 < var)
    (hval : val = n0 * binWidth + f) (hf : |f| ≤ binWidth / 2) (factor : ℤ)
    (hpar : (factor - n0) % 2 = 1) (nMax : ℕ) (hlo : -(nMax : ℤ) ≤ n0) (hhi : n0 < nMax) :
    ((symRange nMax).map fun i => exVal val var (2 * i + factor)).sum ≤
      ((symRange nMax).map fun i => exVal val var i).sum := by
  rw [num_eq, den_eq]
  refine (num_upper val f n0 hv hval hf (factor - 2 * nMax) (by omega) _).trans ?_
  obtain ⟨a, ha⟩ : ∃ a : ℕ, (a : ℤ) = n0 + nMax := ⟨(n0 + nMax).toNat, by omega⟩
  obtain ⟨b, hb⟩ : ∃ b : ℕ, (b : ℤ) = nMax - 1 - n0 := ⟨(nMax - 1 - n0).toNat, by omega⟩
  have h := den_lower val f n0 hv hval a b
  have hab : a + b + 1 = 2 * nMax := by omega
  rw [hab] at h
  have e : n0 - (a : ℤ) = -nMax := by omega
  rw [e] at h
  exact h

theorem den_pos (val var : ℝ) (nMax : ℕ) (h : 0 < nMax) :
    0 < ((symRange nMax).map fun i => exVal val var i).sum := by
  rw [den_eq]
  apply Finset.sum_pos
  · intro i _; exact exVal_pos _ _ _
  · exact ⟨0, Finset.mem_range.mpr (by omega)⟩

theorem num_nonneg (val var : ℝ) (nMax : ℕ) (factor : ℤ) :
    0 ≤ ((symRange nMax).map fun i => exVal val var (2 * i + factor)).sum := by
  rw [num_eq]
  exact Finset.sum_nonneg fun i _ => (exVal_pos _ _ _).le

/-! ### The error function and `Z_err` -/

/-- The error function (the mathematical definition of `scipy.special.erf`). -/
noncomputable def erf (x : ℝ) : ℝ := 2 / √Real.pi * ∫ t in (0 : ℝ)..x, Real.exp (-t ^ 2)

theorem expsq_int : MeasureTheory.Integrable fun t : ℝ => Real.exp (-t ^ 2) := by
  have := integrable_exp_neg_mul_sq (b := 1) one_pos
  simpa using this

theorem expsq_ii (a b : ℝ) :
    IntervalIntegrable (fun t : ℝ => Real.exp (-t ^ 2)) MeasureTheory.volume a b :=
  expsq_int.intervalIntegrable

theorem erf_sub (a b : ℝ) :
    erf b - erf a = 2 / √Real.pi * ∫ t in a..b, Real.exp (-t ^ 2) := by
  unfold erf
  rw [← mul_sub, intervalIntegral.integral_interval_sub_left (expsq_ii _ _) (expsq_ii _ _)]

theorem erf_monotone : Monotone erf := by
  intro a b hab
  have h := erf_sub a b
  have h1 : 0 ≤ ∫ t in a..b, Real.exp (-t ^ 2) :=
    intervalIntegral.integral_nonneg hab fun t _ => (Real.exp_pos _).le
  have h2 : 0 ≤ 2 / √Real.pi := by positivity
  nlinarith [mul_nonneg h2 h1]

theorem erf_neg (x : ℝ) : erf (-x) = -erf x := by
  unfold erf
  have := intervalIntegral.integral_comp_neg (a := 0) (b := x) fun t : ℝ => Real.exp (-t ^ 2)
  simp only [even_two.neg_pow, neg_zero] at this
  rw [intervalIntegral.integral_symm, ← this]; ring

theorem erf_le_one (x : ℝ) : erf x ≤ 1 := by
  rcases le_total 0 x with hx | hx
  · unfold erf
    rw [intervalIntegral.integral_of_le hx]
    have h1 : ∫ t in Set.Ioc 0 x, Real.exp (-t ^ 2) ≤ ∫ t in Set.Ioi 0, Real.exp (-t ^ 2) := by
      apply MeasureTheory.setIntegral_mono_set expsq_int.integrableOn
      · exact Filter.Eventually.of_forall fun t => (Real.exp_pos _).le
      · exact Filter.Eventually.of_forall fun t ht => ht.1
    have h2 := integral_gaussian_Ioi 1
    simp only [neg_mul, one_mul, div_one] at h2
    rw [h2] at h1
    have h3 : 0 < √Real.pi := Real.sqrt_pos.mpr Real.pi_pos
    calc 2 / √Real.pi * _ ≤ 2 / √Real.pi * (√Real.pi / 2) := by
          apply mul_le_mul_of_nonneg_left h1; positivity
      _ = 1 := by field_simp
  · have h := erf_monotone hx
    have : erf 0 = 0 := by unfold erf; simp
    linarith

theorem erf_abs_le (x : ℝ) : |erf x| ≤ 1 := by
  have h1 := erf_le_one x
  have h2 := erf_le_one (-x)
  rw [erf_neg] at h2
  exact abs_le.mpr ⟨by linarith, h1⟩

theorem gauss_mass (v : ℝ) (hv : 0 < v) (a b : ℝ) :
    ∫ t in a..b, Real.exp (-(t / v) ^ 2) / (v * √Real.pi) = 0.5 * (erf (b / v) - erf (a / v)) := by
  rw [erf_sub, intervalIntegral.integral_div,
    intervalIntegral.integral_comp_div (fun t => Real.exp (-t ^ 2)) hv.ne']
  have h3 : 0 < √Real.pi := Real.sqrt_pos.mpr Real.pi_pos
  simp only [smul_eq_mul]
  field_simp
  ring

theorem foldl_sub_eq (f : ℤ → ℝ) (l : List ℤ) (c : ℝ) :
    l.foldl (fun e i => e - f i) c = c - (l.map f).sum := by
  induction l generalizing c with
  | nil => simp
  | cons a l ih => simp [ih]; ring

theorem zErrEntry_nat (erf : ℝ → ℝ) (varMax varNum v : ℝ) (m : ℕ)
    (h0 : ⌈varNum * varMax⌉ / 2 = m) :
    zErrEntry erf varMax varNum v =
      1 - ∑ j ∈ Finset.range (2 * m + 1), 0.5 * (erf ((4 * j - 4 * m + 1) * binWidth / (2 * v))
        - erf ((4 * j - 4 * m - 1) * binWidth / (2 * v))) := by
  unfold zErrEntry zErrNMax range4
  rw [foldl_sub_eq (fun i : ℤ => 0.5 * (erf (((i : ℝ) + 2) * binWidth / (2 * v)) -
    erf ((i : ℝ) * binWidth / (2 * v)))), h0, List.map_map]
  have : ((((m : ℤ) * 4 + 1) - -((m : ℤ) * 4 + 1) + 3) / 4).toNat = 2 * m + 1 := by omega
  rw [this, list_sum_range]
  congr 1
  apply Finset.sum_congr rfl
  intro j _
  simp only [Function.comp]
  push_cast
  congr 3
  · congr 2; ring
  · congr 2; ring

theorem sum_Icc_sym (f : ℤ → ℝ) (m : ℕ) :
    ∑ k ∈ Finset.Icc (-(m : ℤ)) m, f k = ∑ j ∈ Finset.range (2 * m + 1), f ((j : ℤ) - m) := by
  symm
  apply Finset.sum_bij (fun (j : ℕ) _ => (j : ℤ) - m)
  · intro j hj; rw [Finset.mem_range] at hj; rw [Finset.mem_Icc]; omega
  · intro a _ b _ h; omega
  · intro k hk
    rw [Finset.mem_Icc] at hk
    exact ⟨(k + m).toNat, Finset.mem_range.mpr (by omega), by omega⟩
  · intro j _; rfl

theorem zErrEntry_eq (erf : ℝ → ℝ) (varMax varNum v : ℝ) (h0 : 0 ≤ ⌈varNum * varMax⌉ / 2) :
    zErrEntry erf varMax varNum v =
      1 - ∑ k ∈ Finset.Icc (-(⌈varNum * varMax⌉ / 2)) (⌈varNum * varMax⌉ / 2),
        0.5 * (erf ((2 * k + 1 / 2) * √Real.pi / v) - erf ((2 * k - 1 / 2) * √Real.pi / v)) := by
  obtain ⟨m, hm⟩ := Int.eq_ofNat_of_zero_le h0
  rw [zErrEntry_nat erf varMax varNum v m hm, hm]
  have := sum_Icc_sym (fun k => 0.5 * (erf ((2 * k + 1 / 2) * √Real.pi / v)
    - erf ((2 * k - 1 / 2) * √Real.pi / v))) m
  rw [this]
  congr 1
  apply Finset.sum_congr rfl
  intro j _
  unfold binWidth
  push_cast
  congr 3
  · ring
  · ring

theorem sum_incr_le (g : ℕ → ℝ) (lo hi : ℕ → ℝ) (n : ℕ)
    (h1 : ∀ j, g j = hi j - lo j) (h2 : ∀ j, hi j ≤ lo (j + 1)) :
    ∑ j ∈ Finset.range (n + 1), g j ≤ hi n - lo 0 := by
  induction n with
  | zero => simp [h1]
  | succ n ih =>
    rw [Finset.sum_range_succ]
    have := h1 (n + 1)
    have := h2 n
    linarith

theorem zErrEntry_mem (erf : ℝ → ℝ) (hmono : Monotone erf) (hb : ∀ x, |erf x| ≤ 1)
    (varMax varNum v : ℝ) (hv : 0 < v) (h0 : 0 ≤ ⌈varNum * varMax⌉ / 2) :
    0 ≤ zErrEntry erf varMax varNum v ∧ zErrEntry erf varMax varNum v ≤ 1 := by
  obtain ⟨m, hm⟩ := Int.eq_ofNat_of_zero_le h0
  rw [zErrEntry_nat erf varMax varNum v m hm]
  have hw := binWidth_pos
  have mono : ∀ x y : ℝ, x ≤ y → erf (x * binWidth / (2 * v)) ≤ erf (y * binWidth / (2 * v)) := by
    intro x y h
    apply hmono
    apply div_le_div_of_nonneg_right _ (by linarith)
    nlinarith
  constructor
  · have h := sum_incr_le (fun j => 0.5 * (erf ((4 * j - 4 * m + 1) * binWidth / (2 * v))
        - erf ((4 * j - 4 * m - 1) * binWidth / (2 * v))))
      (fun j => 0.5 * erf ((4 * j - 4 * m - 1) * binWidth / (2 * v)))
      (fun j => 0.5 * erf ((4 * j - 4 * m + 1) * binWidth / (2 * v))) (2 * m)
      (fun j => by ring)
      (fun j => by
        have := mono (4 * j - 4 * m + 1) (4 * ((j + 1 : ℕ) : ℝ) - 4 * m - 1)
          (by push_cast; linarith)
        linarith)
    have a1 := (abs_le.mp (hb ((4 * ((2 * m : ℕ) : ℝ) - 4 * m + 1) * binWidth / (2 * v)))).2
    have a2 := (abs_le.mp (hb ((4 * ((0 : ℕ) : ℝ) - 4 * m - 1) * binWidth / (2 * v)))).1
    linarith
  · have : 0 ≤ ∑ j ∈ Finset.range (2 * m + 1),
        0.5 * (erf ((4 * j - 4 * m + 1) * binWidth / (2 * v))
        - erf ((4 * j - 4 * m - 1) * binWidth / (2 * v))) := by
      apply Finset.sum_nonneg
      intro j _
      have := mono (4 * j - 4 * m - 1) (4 * j - 4 * m + 1) (by linarith)
      linarith
    linarith

theorem le_foldl_max (v : ℝ) (vs : List ℝ) : v ≤ vs.foldl max v := by
  induction vs generalizing v with
  | nil => exact le_rfl
  | cons w vs ih => exact (le_max_left v w).trans (ih (max v w))

theorem foldl_max_mem (v : ℝ) (vs : List ℝ) : vs.foldl max v ∈ v :: vs := by
  induction vs generalizing v with
  | nil => simp
  | cons w vs ih =>
    rw [List.foldl_cons]
    have := ih (max v w)
    rcases List.mem_cons.1 this with h | h
    · rw [h]
      rcases max_choice v w with e | e <;> rw [e] <;> simp
    · simp [h]

theorem le_foldl_max_of_mem (v : ℝ) (vs : List ℝ) (x : ℝ) (h : x ∈ v :: vs) : x ≤ vs.foldl max v := by
  induction vs generalizing v with
  | nil => simp at h; rw [h]; exact le_rfl
  | cons w vs ih =>
    rw [List.foldl_cons]
    rcases List.mem_cons.1 h with rfl | h
    · exact (le_max_left x w).trans (le_foldl_max _ _)
    · rcases List.mem_cons.1 h with rfl | h
      · exact (le_max_right v x).trans (le_foldl_max _ _)
      · exact ih _ (List.mem_cons_of_mem _ h)

end Flamingpy.Gkp
