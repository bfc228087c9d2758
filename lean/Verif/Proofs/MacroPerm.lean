import Verif.Model.Macro
import Verif.Props.CvOps
import Verif.Proofs.NoiseCode
import Mathlib.Data.List.Perm.Basic

/-! # The permutation of the micronodes -/

namespace Flamingpy.Noise

open Flamingpy

variable {P : Type} [DecidableEq P]

theorem mapM_ok {α β : Type} (f : α → Option β) (g : α → β) (l : List α) (h : ∀ x ∈ l, f x = some (g x)) :
    l.mapM f = some (l.map g) := by
  rw [CvOps.mapM_some_iff, List.map_map]
  exact List.map_congr_left h

/-- Stars first. -/
def arrange (g : ℕ → Bool) (l : List ℕ) : List ℕ := l.filter g ++ l.filter fun i => !g i

theorem arrange_perm (g : ℕ → Bool) (l : List ℕ) : (arrange g l).Perm l := List.filter_append_perm g l

theorem zip_filter (g : ℕ → Bool) (h : Bool → Bool) (l : List ℕ) :
    ((l.zip (l.map g)).filter fun e => h e.2).map (·.1) = l.filter fun i => h (g i) := by
  induction l with
  | nil => rfl
  | cons a l ih =>
    simp only [List.map_cons, List.zip_cons_cons, List.filter_cons]
    split_ifs <;> simp [ih]

theorem permuteGroup_ok (L : Layer P) (g : ℕ → Bool) (inds : List ℕ) (h : ∀ i ∈ inds, isGkp L i = some (g i)) :
    permuteGroup L inds = some (arrange g inds) := by
  unfold permuteGroup
  rw [mapM_ok _ g inds h]
  simp only [Option.bind_eq_bind, Option.bind_some]
  rw [zip_filter g (fun b => b), zip_filter g (fun b => !b)]
  rfl

theorem permuteGroup_some {L : Layer P} {inds r : List ℕ} (h : permuteGroup L inds = some r) :
    ∀ i ∈ inds, ∃ b, isGkp L i = some b := by
  unfold permuteGroup at h
  simp only [Option.bind_eq_bind, Option.bind_eq_some_iff] at h
  obtain ⟨bs, h1, _⟩ := h
  rw [CvOps.mapM_some_iff] at h1
  intro i hi
  have : isGkp L i ∈ bs.map some := h1 ▸ List.mem_map_of_mem hi
  obtain ⟨b, _, hb⟩ := List.mem_map.1 this
  exact ⟨b, hb.symm⟩

theorem rows_flatten (n : ℕ) : (rows (4 * n)).flatten = List.range (4 * n) := by
  unfold rows
  rw [Nat.mul_div_cancel_left n (by norm_num)]
  induction n with
  | zero => rfl
  | succ n ih =>
    rw [List.range_succ, List.map_append, List.flatten_append, ih]
    have : 4 * (n + 1) = 4 * n + 1 + 1 + 1 + 1 := by ring
    rw [this]
    simp [List.range_succ]

/-- Row `k`. -/
def row (k : ℕ) : List ℕ := [4 * k, 4 * k + 1, 4 * k + 2, 4 * k + 3]

theorem mem_row {k i : ℕ} : i ∈ row k ↔ i / 4 = k := by
  unfold row
  simp only [List.mem_cons, List.not_mem_nil, or_false]
  omega

/-- The permuted indices. -/
def permOf (g : ℕ → Bool) (n : ℕ) : List ℕ := ((List.range n).map fun k => arrange g (row k)).flatten

theorem permuteStarInds_ok (L : Layer P) {n : ℕ} (hn : 0 < n) (hl : L.pts.length = 4 * n) (g : ℕ → Bool)
    (h : ∀ i < 4 * n, isGkp L i = some (g i)) : permuteStarInds L = some (permOf g n) := by
  unfold permuteStarInds
  rw [hl]
  simp only
  rw [if_pos ⟨by omega, by omega⟩, mapM_ok (permuteGroup L) (arrange g)]
  · rw [Option.map_some]
    unfold permOf rows
    rw [Nat.mul_div_cancel_left n (by norm_num), List.map_map]
    rfl
  · intro r hr
    apply permuteGroup_ok
    intro i hi
    apply h
    have : i ∈ (rows (4 * n)).flatten := List.mem_flatten.2 ⟨r, hr, hi⟩
    rw [rows_flatten] at this
    exact List.mem_range.1 this

theorem permuteStarInds_some {L : Layer P} {r : List ℕ} (h : permuteStarInds L = some r) :
    ∃ n, 0 < n ∧ L.pts.length = 4 * n ∧ ∀ i < 4 * n, ∃ b, isGkp L i = some b := by
  unfold permuteStarInds at h
  simp only at h
  split_ifs at h with h0
  rw [Option.map_eq_some_iff] at h
  obtain ⟨rs, h1, _⟩ := h
  refine ⟨L.pts.length / 4, by omega, by omega, fun i hi => ?_⟩
  rw [CvOps.mapM_some_iff] at h1
  have hm : row (i / 4) ∈ rows L.pts.length := by
    unfold rows
    rw [List.mem_map]
    exact ⟨i / 4, List.mem_range.2 (by omega), rfl⟩
  have : permuteGroup L (row (i / 4)) ∈ rs.map some := h1 ▸ List.mem_map_of_mem hm
  obtain ⟨x, _, hx⟩ := List.mem_map.1 this
  exact permuteGroup_some hx.symm i (mem_row.2 rfl)

theorem permOf_perm (g : ℕ → Bool) (n : ℕ) : (permOf g n).Perm (List.range (4 * n)) := by
  rw [← rows_flatten]
  unfold permOf rows
  rw [Nat.mul_div_cancel_left n (by norm_num)]
  induction n with
  | zero => exact List.Perm.refl _
  | succ n ih =>
    rw [List.range_succ, List.map_append, List.map_append, List.flatten_append, List.flatten_append]
    refine ih.append ?_
    simp only [List.map_cons, List.map_nil, List.flatten_cons, List.flatten_nil, List.append_nil]
    exact arrange_perm g (row n)

theorem permOf_length (g : ℕ → Bool) (n : ℕ) : (permOf g n).length = 4 * n := by
  rw [(permOf_perm g n).length_eq, List.length_range]

theorem arrange_row_length (g : ℕ → Bool) (k : ℕ) : (arrange g (row k)).length = 4 :=
  (arrange_perm g (row k)).length_eq

theorem permOf_group (g : ℕ → Bool) (n k : ℕ) (hk : k < n) :
    ((permOf g n).drop (4 * k)).take 4 = arrange g (row k) := by
  unfold permOf
  induction n generalizing k with
  | zero => omega
  | succ n ih =>
    rw [List.range_succ, List.map_append, List.flatten_append]
    have hl : (((List.range n).map fun k => arrange g (row k)).flatten).length = 4 * n := permOf_length g n
    by_cases h : k < n
    · rw [List.drop_append_of_le_length (by omega), List.take_append_of_le_length]
      · exact ih k h
      · rw [List.length_drop]; omega
    · obtain rfl : k = n := by omega
      rw [← hl, List.drop_left]
      simp only [List.map_cons, List.map_nil, List.flatten_cons, List.flatten_nil, List.append_nil]
      rw [List.take_of_length_le (arrange_row_length g k).le]

theorem permOf_get (g : ℕ → Bool) (n k i : ℕ) (hk : k < n) (hi : i < 4) :
    (permOf g n)[4 * k + i]? = (arrange g (row k))[i]? := by
  rw [← permOf_group g n k hk, List.getElem?_take_of_lt hi, List.getElem?_drop]

/-- The star of a row. -/
def starOf (g : ℕ → Bool) (k : ℕ) : ℕ := (arrange g (row k)).headD 0

theorem starOf_get (g : ℕ → Bool) (n k : ℕ) (hk : k < n) : (permOf g n)[4 * k]? = some (starOf g k) := by
  have := permOf_get g n k 0 hk (by omega)
  rw [add_zero] at this
  rw [this]
  unfold starOf
  have hl := arrange_row_length g k
  cases h : arrange g (row k) with
  | nil => rw [h] at hl; simp at hl
  | cons a l => rfl

theorem starOf_mem (g : ℕ → Bool) (k : ℕ) : starOf g k / 4 = k := by
  rw [← mem_row, ← (arrange_perm g (row k)).mem_iff]
  unfold starOf
  have hl := arrange_row_length g k
  cases h : arrange g (row k) with
  | nil => rw [h] at hl; simp at hl
  | cons a l => simp

/-- The star is a GKP state as soon as the row contains one. -/
theorem starOf_gkp (g : ℕ → Bool) (k : ℕ) : g (starOf g k) = true ↔ ∃ i, i / 4 = k ∧ g i = true := by
  constructor
  · exact fun h => ⟨_, starOf_mem g k, h⟩
  · rintro ⟨i, hi, hg⟩
    have hm : i ∈ (row k).filter g := List.mem_filter.2 ⟨mem_row.2 hi, hg⟩
    unfold starOf arrange
    cases h : (row k).filter g with
    | nil => rw [h] at hm; cases hm
    | cons a l =>
      have : a ∈ (row k).filter g := h ▸ List.mem_cons_self
      simpa using (List.mem_filter.1 this).2

theorem mem_every4 {α : Type} {a : List α} {x : α} : x ∈ every4 a ↔ ∃ j, j % 4 = 0 ∧ a[j]? = some x := by
  unfold every4
  rw [List.mem_map]
  constructor
  · rintro ⟨⟨y, j⟩, h, rfl⟩
    rw [List.mem_filter, List.mk_mem_zipIdx_iff_getElem?] at h
    exact ⟨j, by simpa using h.2, h.1⟩
  · rintro ⟨j, h0, h1⟩
    exact ⟨(x, j), by rw [List.mem_filter, List.mk_mem_zipIdx_iff_getElem?]; simp [h0, h1], rfl⟩

theorem mem_notEvery4 {α : Type} {a : List α} {x : α} : x ∈ notEvery4 a ↔ ∃ j, j % 4 ≠ 0 ∧ a[j]? = some x := by
  unfold notEvery4
  rw [List.mem_map]
  constructor
  · rintro ⟨⟨y, j⟩, h, rfl⟩
    rw [List.mem_filter, List.mk_mem_zipIdx_iff_getElem?] at h
    exact ⟨j, by simpa using h.2, h.1⟩
  · rintro ⟨j, h0, h1⟩
    exact ⟨(x, j), by rw [List.mem_filter, List.mk_mem_zipIdx_iff_getElem?]; simp [h0, h1], rfl⟩

theorem every4_nodup {α : Type} {a : List α} (h : a.Nodup) : (every4 a).Nodup := by
  refine List.Nodup.sublist ?_ h
  have := (List.filter_sublist (p := fun e : α × ℕ => e.2 % 4 == 0) (l := a.zipIdx)).map (·.1)
  rwa [List.zipIdx_map_fst] at this

theorem notEvery4_nodup {α : Type} {a : List α} (h : a.Nodup) : (notEvery4 a).Nodup := by
  refine List.Nodup.sublist ?_ h
  have := (List.filter_sublist (p := fun e : α × ℕ => e.2 % 4 != 0) (l := a.zipIdx)).map (·.1)
  rwa [List.zipIdx_map_fst] at this

/-! ### The beamsplitters -/

theorem applyFour_in (S : Matrix (Fin 4) (Fin 4) ℝ) (i : ℕ) (a : ℕ → ℝ) (t : Fin 4) :
    applyFour S i a (i + t) = ∑ l : Fin 4, S t l * a (i + l) := by
  unfold applyFour
  rw [if_pos ⟨by omega, by omega⟩]
  have : Fin.ofNat 4 (i + t - i) = t := by
    apply Fin.ext
    rw [Fin.val_ofNat]
    omega
  rw [this]

theorem applyFour_out (S : Matrix (Fin 4) (Fin 4) ℝ) (i : ℕ) (a : ℕ → ℝ) {j : ℕ} (h : j < i ∨ i + 4 ≤ j) :
    applyFour S i a j = a j := by
  unfold applyFour
  rw [if_neg (by omega)]

theorem splitFold (S T : Matrix (Fin 4) (Fin 4) ℝ) (n m : ℕ) (hm : m ≤ n) (a : ℕ → ℝ) :
    let F := (List.range m).foldl (fun a k => applyFour T (4 * n + 4 * k) (applyFour S (4 * k) a)) a
    (∀ k < m, ∀ t : Fin 4, F (4 * k + t) = ∑ l : Fin 4, S t l * a (4 * k + l)) ∧
    (∀ k < m, ∀ t : Fin 4, F (4 * n + 4 * k + t) = ∑ l : Fin 4, T t l * a (4 * n + 4 * k + l)) ∧
    ∀ j, (4 * m ≤ j ∧ j < 4 * n ∨ 4 * n + 4 * m ≤ j) → F j = a j := by
  induction m with
  | zero => simp
  | succ m ih =>
    obtain ⟨h1, h2, h3⟩ := ih (by omega)
    simp only [List.range_succ, List.foldl_append, List.foldl_cons, List.foldl_nil]
    refine ⟨fun k hk t => ?_, fun k hk t => ?_, fun j hj => ?_⟩
    · rw [applyFour_out _ _ _ (by omega)]
      by_cases h : k < m
      · rw [applyFour_out _ _ _ (by omega)]
        exact h1 k h t
      · obtain rfl : k = m := by omega
        rw [applyFour_in]
        refine Finset.sum_congr rfl fun l _ => ?_
        rw [h3 _ (by omega)]
    · by_cases h : k < m
      · rw [applyFour_out _ _ _ (by omega), applyFour_out _ _ _ (by omega)]
        exact h2 k h t
      · obtain rfl : k = m := by omega
        rw [applyFour_in]
        refine Finset.sum_congr rfl fun l _ => ?_
        rw [applyFour_out _ _ _ (by omega), h3 _ (by omega)]
    · rw [applyFour_out _ _ _ (by omega), applyFour_out _ _ _ (by omega), h3 _ (by omega)]

theorem splitAll_spec (n : ℕ) (quads : List ℝ) :
    (∀ k < n, ∀ t : Fin 4, (splitAll (4 * n) quads).getD (4 * k + t) 0 =
      ∑ l : Fin 4, CvOps.fourSplitter t l * quads.getD (4 * k + l) 0) ∧
    (∀ k < n, ∀ t : Fin 4, (splitAll (4 * n) quads).getD (4 * n + 4 * k + t) 0 =
      ∑ l : Fin 4, CvOps.fourSplitter t l * quads.getD (4 * n + 4 * k + l) 0) ∧
    (splitAll (4 * n) quads).length = 2 * (4 * n) := by
  unfold splitAll
  rw [Nat.mul_div_cancel_left n (by norm_num)]
  obtain ⟨h1, h2, _⟩ := splitFold CvOps.bsNetwork.toBlocks₁₁ CvOps.bsNetwork.toBlocks₂₂ n n le_rfl
    fun j => quads.getD j 0
  have e1 : CvOps.bsNetwork.toBlocks₁₁ = CvOps.fourSplitter := by
    rw [CvOps.bs_entries, Matrix.toBlocks_fromBlocks₁₁]
  have e2 : CvOps.bsNetwork.toBlocks₂₂ = CvOps.fourSplitter := by
    rw [CvOps.bs_entries, Matrix.toBlocks_fromBlocks₂₂]
  rw [e1, e2] at h1 h2 ⊢
  refine ⟨fun k hk t => ?_, fun k hk t => ?_, toList_length _ _⟩
  · rw [toList_getD _ _ (by omega)]; exact h1 k hk t
  · rw [toList_getD _ _ (by omega)]; exact h2 k hk t

end Flamingpy.Noise
