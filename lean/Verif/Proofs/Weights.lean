import Verif.Model.Weights
import Verif.Proofs.CodeFacts
import Verif.Proofs.RhgDegree
import Mathlib.Analysis.Complex.ExponentialBounds
import Mathlib.Tactic.NormNum
import Mathlib.Tactic.Linarith

/-! # Lemmas about `assign_weights` -/

namespace Flamingpy.Weights

open Flamingpy Flamingpy.SurfaceCode

theorem setAll_ok (f : V → Except WErr ℝ) (g : V → ℝ) (qs : List V) (w : V → Option ℝ)
    (h : ∀ q ∈ qs, f q = .ok (g q)) :
    setAll f qs w = .ok fun q => if q ∈ qs then some (g q) else w q := by
  unfold setAll
  induction qs generalizing w with
  | nil => simp; rfl
  | cons a qs ih =>
    rw [List.foldlM_cons, h a (by simp)]
    change qs.foldlM _ (Function.update w a (some (g a))) = _
    rw [ih _ fun q hq => h q (by simp [hq])]
    congr 1
    funext q
    by_cases hq : q ∈ qs
    · simp [hq]
    · by_cases ha : q = a
      · subst ha; simp [hq]
      · simp [hq, ha]

theorem adj_length {code : Code} (h : IsCode code) {q : V} (hq : q ∈ PyDict.keys code.graph.nodes) :
    (adjOf code.graph q).length ≤ 4 := by
  obtain ⟨hok, hd⟩ := h.ok
  obtain ⟨hb, i, hi⟩ := isNode_iff.1 ((hok.graphNodes q).1 hq)
  obtain ⟨j, hj⟩ := other_axis i
  obtain ⟨k, hk, hkj, hall⟩ := third_axis i j hj
  have nd : (adjOf code.graph q).Nodup := hok.nodesNd.filter _
  rw [← List.toFinset_card_of_nodup nd]
  have hsub : (adjOf code.graph q).toFinset ⊆
      nbrsAlong code.dims (boundsOf code.ec code.boundaries) q j ∪
      nbrsAlong code.dims (boundsOf code.ec code.boundaries) q k := by
    intro y hy
    unfold adjOf at hy
    simp only [List.mem_toFinset, List.mem_filter, decide_eq_true_eq] at hy
    rw [hok.graphEdges] at hy
    obtain ⟨m, hm, b, hbn, rfl⟩ := (nbr_iff hb hi y).1 hy.2.2
    rw [Finset.mem_union]
    rcases hall m with rfl | rfl | rfl
    · exact absurd rfl hm
    · exact Or.inl (Finset.mem_image_of_mem _ hbn)
    · exact Or.inr (Finset.mem_image_of_mem _ hbn)
  refine (Finset.card_le_card hsub).trans ((Finset.card_union_le _ _).trans ?_)
  rw [nbrsAlong_card, nbrsAlong_card]
  have := nb_card_le (hb j) (by have := hd j; omega)
  have := nb_card_le (hb k) (by have := hd k; omega)
  omega

theorem mapM_need (a : Attrs) (nbrs : List V) (h : ∀ v ∈ nbrs, (a.state v).isSome) :
    (nbrs.mapM fun v => need WErr.keyError (a.state v)) = .ok (nbrs.map fun v => (a.state v).getD "") := by
  induction nbrs with
  | nil => rfl
  | cons v l ih =>
    rw [List.mapM_cons, ih fun u hu => h u (by simp [hu])]
    obtain ⟨s, hs⟩ := Option.isSome_iff_exists.1 (h v (by simp))
    rw [hs]
    simp [need, hs]
    rfl

theorem pCount_ok (a : Attrs) (nbrs : List V) (h : ∀ v ∈ nbrs, (a.state v).isSome) :
    pCount a nbrs = .ok (nbrs.countP fun v => a.state v == some "p") := by
  unfold pCount
  rw [mapM_need a nbrs h]
  change Except.ok _ = _
  congr 1
  rw [List.countP_map]
  apply List.countP_congr
  intro v hv
  obtain ⟨s, hs⟩ := Option.isSome_iff_exists.1 (h v hv)
  simp [hs]

theorem pyRound_ge {x : ℝ} {n : ℤ} (h : (n : ℝ) - 1 / 2 < x) : n ≤ pyRound x := by
  have h1 := Int.floor_le x
  have h2 := Int.lt_floor_add_one x
  unfold pyRound
  have key : n ≤ ⌊x⌋ + 1 := by
    have : (n : ℝ) < ⌊x⌋ + 2 := by linarith
    have : n < ⌊x⌋ + 2 := by exact_mod_cast this
    omega
  split_ifs with a b c
  · have : (n : ℝ) < ⌊x⌋ + 1 := by linarith
    have : n < ⌊x⌋ + 1 := by exact_mod_cast this
    omega
  · exact key
  · have : (n : ℝ) < ⌊x⌋ + 1 := by linarith
    have : n < ⌊x⌋ + 1 := by exact_mod_cast this
    omega
  · exact key

theorem pyRound_le {x : ℝ} {n : ℤ} (h : x < (n : ℝ) + 1 / 2) : pyRound x ≤ n := by
  have h1 := Int.floor_le x
  have h2 := Int.lt_floor_add_one x
  unfold pyRound
  have key : ⌊x⌋ ≤ n := by
    have : (⌊x⌋ : ℝ) < n + 1 := by linarith
    have : ⌊x⌋ < n + 1 := by exact_mod_cast this
    omega
  split_ifs with a b c
  · exact key
  · have : (⌊x⌋ : ℝ) < n := by linarith
    have : ⌊x⌋ < n := by exact_mod_cast this
    omega
  · exact key
  · have : (⌊x⌋ : ℝ) < n := by linarith
    have : ⌊x⌋ < n := by exact_mod_cast this
    omega

theorem pyRound_near (x : ℝ) : |(pyRound x : ℝ) - x| ≤ 1 / 2 := by
  have h1 := Int.floor_le x
  have h2 := Int.lt_floor_add_one x
  unfold pyRound
  rw [abs_le]
  split_ifs with a b c <;> push_cast <;> constructor <;> linarith

theorem clip_spec {p : ℝ} (h : 0 ≤ p) : 0 < clip p ∧ clip p ≤ 1 / 2 := by
  unfold clip
  simp only
  split_ifs with h0
  · unfold smallestNumber
    refine ⟨by positivity, ?_⟩
    calc ((2 : ℝ)⁻¹) ^ 1022 ≤ (2 : ℝ)⁻¹ ^ 1 := pow_le_pow_of_le_one (by norm_num) (by norm_num) (by norm_num)
      _ = 1 / 2 := by norm_num
  · constructor
    · refine lt_of_le_of_ne (le_min h (by norm_num)) (Ne.symm h0)
    · exact (min_le_right _ _).trans (by norm_num)

theorem neg_log_ge {p : ℝ} (h0 : 0 < p) (h : p ≤ 1 / 2) : Real.log 2 ≤ -Real.log p := by
  rw [← Real.log_inv]
  apply Real.log_le_log (by norm_num)
  rw [le_inv_comm₀ (by norm_num) h0]
  norm_num at h ⊢
  exact h

theorem toWeight_ge (o : Opts) {p : ℝ} (h0 : 0 < p) (h : p ≤ 1 / 2) (hm : o.integer = true → 1 ≤ o.multiplier) :
    Real.log 2 ≤ toWeight o p ∧ (o.integer = true → ∃ n : ℕ, 1 ≤ n ∧ toWeight o p = n) := by
  have hl := neg_log_ge h0 h
  have hlog2 : (1 / 2 : ℝ) < Real.log 2 := by
    have : (1 / 2 : ℝ) < 0.6931471803 := by norm_num
    exact this.trans Real.log_two_gt_d9
  have hlog2' : Real.log 2 < 1 := by
    have : (0.6931471808 : ℝ) < 1 := by norm_num
    exact Real.log_two_lt_d9.trans this
  unfold toWeight
  cases hi : o.integer with
  | false => simpa using hl
  | true =>
    have hr : 1 ≤ pyRound (-o.multiplier * Real.log p) := by
      apply pyRound_ge
      have := hm hi
      have : (1 / 2 : ℝ) < -Real.log p := by linarith
      have : -Real.log p ≤ o.multiplier * -Real.log p := by nlinarith
      push_cast
      linarith
    simp only [if_true]
    constructor
    · have : (1 : ℝ) ≤ (pyRound (-o.multiplier * Real.log p) : ℝ) := by exact_mod_cast hr
      linarith
    · intro _
      refine ⟨(pyRound (-o.multiplier * Real.log p)).toNat, by omega, ?_⟩
      have : ((pyRound (-o.multiplier * Real.log p)).toNat : ℤ) = pyRound (-o.multiplier * Real.log p) := by
        omega
      exact_mod_cast this.symm

end Flamingpy.Weights
