import Verif.Proofs.MacroMeasure
import Verif.Proofs.Gkp
import Verif.Spec.Macro
import Mathlib.Tactic.Linarith
import Mathlib.Tactic.Ring

/-! # Reducing one macronode -/

namespace Flamingpy.Noise

open Flamingpy

variable {P : Type} [DecidableEq P]

theorem hom_fold (M : Macro P) (v : ℕ → ℝ) (l : List P) (m₀ : ℕ → ℝ)
    (h : ∀ x ∈ l, ∃ b, M.bodyIndex x = some b ∧ (b ≠ 1 → M.layer.attrs.homQ x = some (v b))) :
    ∃ m, l.foldlM (fun meas micro => do
        let index ← M.bodyIndex micro
        if index ≠ 1 then
          let x ← M.layer.attrs.homQ micro
          pure (Function.update meas index x)
        else pure meas) m₀ = some m ∧
      (∀ b, b ≠ 1 → (∃ x ∈ l, M.bodyIndex x = some b) → m b = v b) ∧
      ∀ b, (∀ x ∈ l, M.bodyIndex x ≠ some b) → m b = m₀ b := by
  induction l generalizing m₀ with
  | nil => exact ⟨m₀, rfl, by simp, by simp⟩
  | cons x l ih =>
    obtain ⟨b, hb, hv⟩ := h x (by simp)
    have h' := fun y hy => h y (List.mem_cons_of_mem x hy)
    by_cases h1 : b = 1
    · obtain ⟨m, e1, e2, e3⟩ := ih m₀ h'
      refine ⟨m, ?_, ?_, ?_⟩
      · rw [List.foldlM_cons]
        simp only [hb, h1, Option.bind_eq_bind, Option.bind_some, ne_eq, not_true_eq_false, if_false]
        exact e1
      · rintro c hc ⟨y, hy, hyc⟩
        rcases List.mem_cons.1 hy with heq | hm
        · subst heq
          rw [hb, h1] at hyc
          exact absurd (Option.some.inj hyc).symm hc
        · exact e2 c hc ⟨y, hm, hyc⟩
      · intro c hc
        exact e3 c fun y hy => hc y (List.mem_cons_of_mem x hy)
    · obtain ⟨m, e1, e2, e3⟩ := ih (Function.update m₀ b (v b)) h'
      refine ⟨m, ?_, ?_, ?_⟩
      · rw [List.foldlM_cons]
        simp only [hb, hv h1, h1, Option.bind_eq_bind, Option.bind_some, ne_eq, not_false_eq_true, if_true]
        exact e1
      · rintro c hc ⟨y, hy, hyc⟩
        by_cases hex : ∃ z ∈ l, M.bodyIndex z = some c
        · exact e2 c hc hex
        · push Not at hex
          rw [e3 c hex]
          rcases List.mem_cons.1 hy with heq | hm
          · subst heq
            rw [hb] at hyc
            obtain rfl := Option.some.inj hyc
            exact Function.update_self ..
          · exact absurd hyc (hex y hm)
      · intro c hc
        rw [e3 c fun y hy => hc y (List.mem_cons_of_mem x hy)]
        apply Function.update_of_ne
        rintro rfl
        exact hc x (by simp) hb

/-- The processed outcome of a neighbour with body index `t + 1`, from the planets' outcomes. -/
def zOf (q : ℕ → ℝ) (t : ℕ) : ℝ :=
  match t with
  | 0 => 0
  | 1 => q 1 - q 3
  | 2 => q 2 - q 3
  | _ => q 1 + q 2

theorem process_eq (vals : ℕ → ℝ) (q : ℕ → ℝ) (t : ℕ) (ht : t < 4) (h : ∀ s, 1 ≤ s → s < 4 → vals (s + 1) = q s) :
    processOutcomes vals (some (t + 1)) = some (zOf q t) := by
  have h1 := h 1 (by omega) (by omega)
  have h2 := h 2 (by omega) (by omega)
  have h3 := h 3 (by omega) (by omega)
  simp only [Nat.reduceAdd] at h1 h2 h3
  interval_cases t <;> simp [processOutcomes, zOf, h1, h2, h3]

theorem zOf_add (a b : ℕ → ℝ) (t : ℕ) : zOf (fun s => a s + b s) t = zOf a t + zOf b t := by
  unfold zOf
  split <;> ring

theorem zOf_congr {a b : ℕ → ℝ} (h : ∀ s, 1 ≤ s → s < 4 → a s = b s) (t : ℕ) : zOf a t = zOf b t := by
  unfold zOf
  split
  · rfl
  · rw [h 1 (by omega) (by omega), h 3 (by omega) (by omega)]
  · rw [h 2 (by omega) (by omega), h 3 (by omega) (by omega)]
  · rw [h 1 (by omega) (by omega), h 2 (by omega) (by omega)]

/-- The same without bounds on the noise. -/
theorem zOf_exact (x : Fin 4 → ℝ) (e : ℕ → ℝ) (q : ℕ → ℝ)
    (hq : ∀ t : Fin 4, t ≠ 0 → q t = ∑ l : Fin 4, CvOps.fourSplitter t l * x l + e t) (t : Fin 4) :
    zOf q t = x t - x 0 + zOf e t := by
  have h1 := hq 1 (by decide)
  have h2 := hq 2 (by decide)
  have h3 := hq 3 (by decide)
  simp [Fin.sum_univ_four, CvOps.fourSplitter] at h1 h2 h3
  fin_cases t <;> simp [zOf, h1, h2, h3] <;> ring

/-- The four-splitter makes the processed outcome the difference of the positions of the neighbour and of
its star. -/
theorem zOf_diff (x : Fin 4 → ℝ) (e : Fin 4 → ℝ) (eps : ℝ) (he : ∀ t, |e t| ≤ eps) (q : ℕ → ℝ)
    (hq : ∀ t : Fin 4, t ≠ 0 → q t = ∑ l : Fin 4, CvOps.fourSplitter t l * x l + e t) (t : Fin 4) :
    |zOf q t - (x t - x 0)| ≤ 2 * eps := by
  have h1 := hq 1 (by decide)
  have h2 := hq 2 (by decide)
  have h3 := hq 3 (by decide)
  have e1 := abs_le.1 (he 1)
  have e2 := abs_le.1 (he 2)
  have e3 := abs_le.1 (he 3)
  have e0 : 0 ≤ eps := (abs_nonneg _).trans (he 0)
  simp [CvOps.fourSplitter, Fin.sum_univ_four] at h1 h2 h3
  rw [abs_le]
  fin_cases t
  · simp [zOf]; exact e0
  · simp only [zOf, Fin.mk_one, Fin.val_one, h1, h3]; constructor <;> linarith
  · simp only [zOf, Fin.reduceFinMk, h2, h3]; constructor <;> linarith
  · simp only [zOf, Fin.reduceFinMk, h1, h2]; constructor <;> linarith

/-- Homodyne outcomes of the macronode of a micronode. -/
theorem homOutcomes_ok (M : Macro P) (c v : P) (l : List P) (hc : M.centre v = c) (hd : M.dict c = some l)
    (q : ℕ → ℝ) (b : P → ℕ) (hb : ∀ x ∈ l, b x < 4 ∧ M.bodyIndex x = some (b x + 1) ∧
      (b x ≠ 0 → M.layer.attrs.homQ x = some (q (b x))))
    (hall : ∀ t, 1 ≤ t → t < 4 → ∃ x ∈ l, b x = t) :
    ∃ m, homOutcomes M (some v) = some m ∧ ∀ s, 1 ≤ s → s < 4 → m (s + 1) = q s := by
  unfold homOutcomes
  simp only [hc, hd, Option.bind_some]
  obtain ⟨m, h1, h2, _⟩ := hom_fold M (fun b => q (b - 1)) l (fun _ => 0) (by
    intro x hx
    obtain ⟨_, h1, h2⟩ := hb x hx
    refine ⟨_, h1, fun hne => ?_⟩
    rw [Nat.add_sub_cancel]
    exact h2 (by omega))
  refine ⟨m, h1, fun s h1 h4 => ?_⟩
  obtain ⟨x, hx, hbx⟩ := hall s h1 h4
  rw [h2 (s + 1) (by omega) ⟨x, hx, by rw [(hb x hx).2.1, hbx]⟩, Nat.add_sub_cancel]

/-! ### The loop over the four micronodes -/

/-- Data of one micronode: nothing without a neighbour. -/
def dataOf (G : ℕ → Bool) (Z : ℕ → ℝ) (nb : Option ℕ) : Option String × Option ℝ :=
  match nb with
  | none => (none, none)
  | some i => (some (if G i then "GKP" else "p"), some (Z i))

theorem acc_fold (delta : ℝ) (G : ℕ → Bool) (Z : ℕ → ℝ) (l : List (Option ℕ)) (a : Acc) :
    ∃ a', (l.map (dataOf G Z)).foldlM (accStep delta) a = some a' ∧
      a'.outcome = a.outcome - (((l.filterMap id).filter fun i => !G i).map Z).sum ∧
      a'.gkpZ = a.gkpZ ++ ((l.filterMap id).filter G).map Z ∧
      (¬ 0 < delta → a'.pErr = a.pErr) ∧
      (0 < delta → a'.pErr = a.pErr + (((l.filterMap id).filter G).map fun i =>
        Gkp.zErrCond (2 * delta) (Z i) (useHomVal := true)).sum) ∧
      a'.numP = a.numP + ((l.filterMap id).filter fun i => !G i).length := by
  induction l generalizing a with
  | nil => exact ⟨a, rfl, by simp, by simp, by simp, by simp, by simp⟩
  | cons o l ih =>
    rw [List.map_cons, List.foldlM_cons]
    cases o with
    | none =>
      have : accStep delta a (dataOf G Z none) = some a := by simp [accStep, dataOf]
      rw [this]
      obtain ⟨a', h1, h2, h3, h4, h5, h6⟩ := ih a
      exact ⟨a', h1, by simpa using h2, by simpa using h3, h4, by simpa using h5, by simpa using h6⟩
    | some i =>
      cases hg : G i with
      | true =>
        have : accStep delta a (dataOf G Z (some i)) = some
            { a with
              pErr := if delta > 0 then a.pErr + Gkp.zErrCond (2 * delta) (Z i) (useHomVal := true) else a.pErr
              gkpZ := a.gkpZ ++ [Z i] } := by
          simp [accStep, dataOf, hg]
        rw [this]
        obtain ⟨a', h1, h2, h3, h4, h5, h6⟩ := ih { a with
              pErr := if delta > 0 then a.pErr + Gkp.zErrCond (2 * delta) (Z i) (useHomVal := true) else a.pErr
              gkpZ := a.gkpZ ++ [Z i] }
        refine ⟨a', h1, by simpa [hg] using h2, by simpa [hg] using h3, fun hd => ?_, fun hd => ?_, ?_⟩
        · rw [h4 hd]
          simp only [gt_iff_lt, if_neg hd]
        · rw [h5 hd]
          simp [hg, hd, add_assoc]
        · rw [h6]
          simp [hg]
      | false =>
        have : accStep delta a (dataOf G Z (some i)) = some { a with numP := a.numP + 1, outcome := a.outcome - Z i } := by
          simp [accStep, dataOf, hg]
        rw [this]
        obtain ⟨a', h1, h2, h3, h4, h5, h6⟩ := ih { a with numP := a.numP + 1, outcome := a.outcome - Z i }
        refine ⟨a', h1, ?_, by simpa [hg] using h3, h4, by simpa [hg] using h5, ?_⟩
        · rw [h2]
          simp [hg]
          ring
        · rw [h6]
          simp [hg]
          omega

/-- Sum of reals with a bounded error. -/
theorem sum_close (l : List ℕ) (f g : ℕ → ℝ) (eps : ℝ) (h : ∀ i ∈ l, |f i - g i| ≤ eps) :
    |(l.map f).sum - (l.map g).sum| ≤ l.length * eps := by
  induction l with
  | nil => simp
  | cons a l ih =>
    have h1 := abs_le.1 (h a (by simp))
    have h2 := abs_le.1 (ih fun i hi => h i (by simp [hi]))
    simp only [List.map_cons, List.sum_cons, List.length_cons]
    push_cast
    rw [abs_le]
    constructor <;> linarith

theorem bins_sum (l : List ℕ) (Z : ℕ → ℝ) (d : ℕ → ℤ) (h : ∀ i ∈ l, Gkp.gkpBinner (Z i) = d i % 2) :
    ((l.map Z).map Gkp.gkpBinner).sum % 2 = (l.map d).sum % 2 := by
  induction l with
  | nil => rfl
  | cons a l ih =>
    simp only [List.map_cons, List.sum_cons]
    rw [h a (by simp)]
    have := ih fun i hi => h i (by simp [hi])
    omega

/-- **The decoded bit.**  `l` lists the neighbours, `B` their positions and `S` the positions of their stars, in
units of √π; `u` are the weights of the edges, which are 1 at the neighbours that are p-squeezed. -/
theorem finalBit_eq (l : List ℕ) (hl : l.length ≤ 4) (G : ℕ → Bool) (Z x : ℕ → ℝ) (B S u : ℕ → ℤ) (eps starP : ℝ)
    (heps : 20 * eps < √Real.pi)
    (hB : ∀ i ∈ l, G i = true → x i = B i * √Real.pi)
    (hZ : ∀ i ∈ l, |Z i - (x i - S i * √Real.pi)| ≤ 2 * eps)
    (hu : ∀ i ∈ l, u i = 1 ∨ u i = -1) (hu1 : ∀ i ∈ l, G i = false → u i = 1)
    (hstar : |2 * starP - (l.map fun i => u i * x i).sum| ≤ 2 * eps) (a : Acc)
    (ha : a.outcome = 2 * starP - ((l.filter fun i => !G i).map Z).sum) (hg : a.gkpZ = (l.filter G).map Z) :
    finalBit a = (l.map S).sum % 2 := by
  have e0 : 0 ≤ eps := by have := (abs_nonneg _).trans hstar; linarith
  -- positions seen by the star
  have hout : |a.outcome - (l.map fun i => if G i then u i * B i else S i).sum * √Real.pi| ≤ 10 * eps := by
    have h1 := sum_close (l.filter fun i => !G i) Z (fun i => x i - S i * √Real.pi) (2 * eps)
      fun i hi => hZ i (List.mem_filter.1 hi).1
    have h2 : (l.map fun i => u i * x i).sum - ((l.filter fun i => !G i).map fun i => x i - S i * √Real.pi).sum =
        ((l.map fun i => if G i then u i * B i else S i).sum : ℤ) * √Real.pi := by
      have : ∀ l' : List ℕ, (∀ i ∈ l', i ∈ l) →
          (l'.map fun i => u i * x i).sum - ((l'.filter fun i => !G i).map fun i => x i - S i * √Real.pi).sum =
          ((l'.map fun i => if G i then u i * B i else S i).sum : ℤ) * √Real.pi := by
        intro l' hsub
        induction l' with
        | nil => simp
        | cons b l' ih =>
          have := ih fun i hi => hsub i (by simp [hi])
          cases hgb : G b with
          | true =>
            have hb := hB b (hsub b (by simp)) hgb
            simp only [List.map_cons, List.sum_cons, List.filter_cons, hgb, Bool.not_true, Bool.false_eq_true, if_false,
              if_true, Int.cast_add, Int.cast_mul]
            rw [hb, add_mul, ← this]
            ring
          | false =>
            have hb := hu1 b (hsub b (by simp)) hgb
            simp only [List.map_cons, List.sum_cons, List.filter_cons, hgb, Bool.not_false, if_true, Bool.false_eq_true,
              if_false, Int.cast_add]
            rw [hb, Int.cast_one, add_mul, ← this]
            ring
      exact this l fun i hi => hi
    have h3 := abs_le.1 h1
    have h4 := abs_le.1 hstar
    have h5 : ((l.filter fun i => !G i).length : ℝ) ≤ 4 := by
      have : (l.filter fun i => !G i).length ≤ 4 := (List.length_filter_le _ l).trans hl
      exact_mod_cast this
    have h6 : ((l.filter fun i => !G i).length : ℝ) * (2 * eps) ≤ 8 * eps := by nlinarith
    rw [ha, abs_le]
    constructor <;> linarith
  have hpi : 10 * eps < √Real.pi / 2 := by linarith
  have hb1 : Gkp.gkpBinner a.outcome = (l.map fun i => if G i then u i * B i else S i).sum % 2 := by
    have h := abs_le.1 hout
    have e : a.outcome = ((l.map fun i => if G i then u i * B i else S i).sum : ℤ) * √Real.pi +
      (a.outcome - ((l.map fun i => if G i then u i * B i else S i).sum : ℤ) * √Real.pi) := by ring
    rw [e]
    exact Gkp.gkpBinner_of_decomp _ _ (by unfold Gkp.binWidth; linarith) (by unfold Gkp.binWidth; linarith)
  have hb2 : ((l.filter G).map Z |>.map Gkp.gkpBinner).sum % 2 = ((l.filter G).map fun i => B i - S i).sum % 2 := by
    apply bins_sum
    intro i hi
    rw [List.mem_filter] at hi
    have h := abs_le.1 (hZ i hi.1)
    rw [hB i hi.1 hi.2] at h
    have e : Z i = ((B i - S i : ℤ) : ℝ) * √Real.pi + (Z i - ((B i - S i : ℤ) : ℝ) * √Real.pi) := by ring
    rw [e]
    exact Gkp.gkpBinner_of_decomp _ _ (by unfold Gkp.binWidth; push_cast; linarith)
      (by unfold Gkp.binWidth; push_cast; linarith)
  unfold finalBit
  rw [hb1, hg]
  have hsum : ((l.map fun i => if G i then u i * B i else S i).sum + ((l.filter G).map fun i => B i - S i).sum) % 2 =
      (l.map S).sum % 2 := by
    clear hb1 hb2 hout hB hZ hstar ha hg hl hu1
    induction l with
    | nil => rfl
    | cons b l ih =>
      have ih := ih fun i hi => hu i (by simp [hi])
      simp only [List.map_cons, List.sum_cons, List.filter_cons]
      cases hgb : G b with
      | true =>
        simp only [if_true, List.map_cons, List.sum_cons]
        rcases hu b (by simp) with h | h <;> rw [h] <;> omega
      | false => simp only [Bool.false_eq_true, if_false]; omega
  omega

end Flamingpy.Noise
