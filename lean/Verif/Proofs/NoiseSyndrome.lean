import Verif.Proofs.NoiseCode
import Mathlib.Algebra.BigOperators.Group.List.Basic

/-! # Syndrome indices of a surface code -/

namespace Flamingpy.SurfaceCode

open Flamingpy

variable {ec : Ec} {dims : Fin 3 → ℕ} {bds : Fin 3 → Bd}

theorem virtual_nodup (c : V) (hc : c ∈ cells ec dims bds) (hd : ∀ i, 2 ≤ dims i) :
    (virtualPoints ec dims bds (around c)).Nodup ∧
      ∀ x ∈ virtualPoints ec dims bds (around c), x ∉ around c := by
  have hbox := (mem_cells.1 hc).1
  constructor
  · unfold virtualPoints
    apply List.Nodup.filterMap
    · intro i j x hi hj
      have key : ∀ i, x ∈ (match ec with
          | .dual => let hp := nth (around c) (3 + i.val)
            if hp i = 1 then some (Function.update hp i (2 * (dims i : ℤ) - 1)) else none
          | .primal => let lp := nth (around c) i.val
            if lp i = 2 * (dims i : ℤ) - 2 then some (Function.update lp i 0) else none : Option V) →
          x i ≠ c i ∧ ∀ j, j ≠ i → x j = c j := by
        intro i h
        have hdi := hd i
        cases ec with
        | dual =>
          simp only [(nth_around c i).2, Function.update_self, Function.update_idem] at h
          split_ifs at h with h0
          · rw [Option.mem_some_iff] at h
            subst h
            refine ⟨by rw [Function.update_self]; omega, fun j hj => by rw [Function.update_of_ne hj]⟩
          · cases h
        | primal =>
          simp only [(nth_around c i).1, Function.update_self, Function.update_idem] at h
          split_ifs at h with h0
          · rw [Option.mem_some_iff] at h
            subst h
            refine ⟨by rw [Function.update_self]; omega, fun j hj => by rw [Function.update_of_ne hj]⟩
          · cases h
      by_contra hij
      exact (key i (by cases ec <;> exact hi)).1 ((key j (by cases ec <;> exact hj)).2 i hij)
    · exact (List.nodup_finRange 3).filter _
  · intro x hx hx'
    rw [mem_virtualPoints] at hx
    rw [mem_around] at hx'
    obtain ⟨j, hj⟩ := hx'
    have hne : ∀ i, x i ≠ c i → j = i := by
      intro i hi
      by_contra hji
      apply hi
      rcases hj with rfl | rfl
      · rw [Function.update_of_ne (Ne.symm hji)]
      · rw [Function.update_of_ne (Ne.symm hji)]
    obtain ⟨i, hp, h | h⟩ := hx
    · obtain ⟨_, h0, rfl⟩ := h
      have := hd i
      have hji := hne i (by rw [Function.update_self]; omega)
      subst hji
      rcases hj with hj | hj
      · have := congrFun hj j
        rw [Function.update_self, Function.update_self] at this
        omega
      · have := congrFun hj j
        rw [Function.update_self, Function.update_self] at this
        omega
    · obtain ⟨_, h0, rfl⟩ := h
      have := hd i
      have hji := hne i (by rw [Function.update_self]; omega)
      subst hji
      rcases hj with hj | hj
      · have := congrFun hj j
        rw [Function.update_self, Function.update_self] at this
        omega
      · have := congrFun hj j
        rw [Function.update_self, Function.update_self] at this
        omega

theorem actualStabe_nodup (o : SetOrder) (n : ℕ) (nodes : List V) (c : V) (hc : c ∈ cells ec dims bds)
    (hd : ∀ i, 2 ≤ dims i) : (actualStabe o n ec dims bds nodes (around c)).Nodup := by
  have hA : (o.ord n ((around c).dedup.filter fun p => decide (p ∈ nodes))).Nodup :=
    (o.perm n _).nodup_iff.2 ((List.nodup_dedup _).filter _)
  unfold actualStabe
  simp only
  split_ifs
  · rw [List.nodup_append]
    refine ⟨hA, (virtual_nodup c hc hd).1, ?_⟩
    intro x hx y hy hxy
    subst hxy
    rw [(o.perm n _).mem_iff, List.mem_filter, List.mem_dedup] at hx
    exact (virtual_nodup c hc hd).2 x hy hx.1
  · exact hA

section
variable {code : Code} (h : CodeOk code) (hd : ∀ i, 2 ≤ code.dims i)
include h

/-- Members of the un-deduplicated list. -/
theorem CodeOk.mem_allCoords (hd : ∀ i, 2 ≤ code.dims i) (x : V) : x ∈ code.allCoords ↔ x ∈ code.syndrome := by
  obtain ⟨o, ho⟩ := h.allCoords
  rw [ho, mem_actuals_flatten h.graphNodes (goodDims_of_two hd _), h.syndrome]

/-- Every qubit occurs at most twice. -/
theorem CodeOk.count_allCoords (hd : ∀ i, 2 ≤ code.dims i) (x : V) : code.allCoords.count x ≤ 2 := by
  by_cases hx : x ∈ code.syndrome
  · obtain ⟨o, ho⟩ := h.allCoords
    have hb := (mem_qubits.1 ((h.syndrome x).1 hx)).1
    have h2 := h.count_eq hd hx
    rw [h.count_stabs hx] at h2
    have e : code.allCoords.count x =
        ((cells code.ec code.dims (boundsOf code.ec code.boundaries)).filter fun c =>
          adjacent code.dims (boundsOf code.ec code.boundaries) x c).card := by
      rw [ho, actuals_eq, List.count_flatten, List.map_map]
      refine Eq.trans ?_ (countP_finset (centers_nodup _ _ _) (fun a => mem_centers_iff_cells) _)
      have key : ∀ (l : List V) (k : ℕ), (∀ c ∈ l, c ∈ cells code.ec code.dims (boundsOf code.ec code.boundaries)) →
          ((l.zipIdx k).map (List.count x ∘ fun e => actualStabe o (10 + e.2) code.ec code.dims
            (boundsOf code.ec code.boundaries) (PyDict.keys code.graph.nodes) (around e.1))).sum =
          l.countP fun c => decide (adjacent code.dims (boundsOf code.ec code.boundaries) x c) := by
        intro l
        induction l with
        | nil => intro k _; rfl
        | cons c l ih =>
          intro k hl
          have hc := hl c (by simp)
          rw [List.zipIdx_cons, List.map_cons, List.sum_cons, ih _ fun c' hc' => hl c' (by simp [hc']),
            List.countP_cons, Nat.add_comm]
          congr 1
          have hm := mem_actualStabe h.graphNodes (fun i => by have := hd i; omega) o (10 + k) hc x
          simp only [Function.comp]
          rw [(actualStabe_nodup o (10 + k) _ c hc hd).count]
          refine if_congr ?_ rfl rfl
          rw [hm, decide_eq_true_eq]
          exact ⟨fun hh => hh.2, fun hh => ⟨hb, hh⟩⟩
      exact key _ 0 fun c hc => mem_centers_iff_cells.1 hc
    rw [e, h2]
    split_ifs <;> omega
  · rw [List.count_eq_zero_of_not_mem]
    · omega
    · rwa [h.mem_allCoords hd]

theorem CodeOk.exists_other (hd : ∀ i, 2 ≤ code.dims i) :
    ∃ x, x ∈ PyDict.keys code.graph.nodes ∧ x ∉ code.syndrome := by
  have hin : ∀ (bd : Bd) (d : ℕ) (a : ℤ), 2 ≤ d → (a = 1 ∨ a = 2) → inAxis bd d a := by
    intro bd d a hd ha
    cases bd <;> simp only [inAxis] <;> omega
  cases he : code.ec with
  | primal =>
    refine ⟨![1, 2, 2], ?_, ?_⟩
    · rw [h.graphNodes]
      refine ⟨fun i => hin _ _ _ (hd i) ?_, Or.inr (by decide)⟩
      revert i; rw [forall3]; simp
    · rw [h.syndrome, mem_qubits, he]
      rintro ⟨_, i, hi1, hi2⟩
      have a := hi2 1
      have b := hi2 2
      revert i
      rw [forall3]
      simp [facePar, cellPar]
  | dual =>
    refine ⟨![1, 1, 2], ?_, ?_⟩
    · rw [h.graphNodes]
      refine ⟨fun i => hin _ _ _ (hd i) ?_, Or.inl (by decide)⟩
      revert i; rw [forall3]; simp
    · rw [h.syndrome, mem_qubits, he]
      rintro ⟨_, i, hi1, hi2⟩
      revert i
      rw [forall3]
      simp [facePar, cellPar]
      exact ⟨⟨1, by decide, by decide⟩, 0, by decide, by decide⟩

theorem CodeOk.syndrome_lt (hd : ∀ i, 2 ≤ code.dims i) :
    code.syndrome.length < (PyDict.keys code.graph.nodes).length := by
  obtain ⟨x, hx, hxs⟩ := h.exists_other hd
  have hsub : code.syndrome.toFinset ⊂ (PyDict.keys code.graph.nodes).toFinset := by
    rw [Finset.ssubset_iff_of_subset]
    · exact ⟨x, by simpa using hx, by simpa using hxs⟩
    · intro y hy
      rw [List.mem_toFinset] at hy ⊢
      rw [h.graphNodes]
      exact qubit_isNode ((h.syndrome y).1 hy)
  have := Finset.card_lt_card hsub
  rwa [List.toFinset_card_of_nodup h.syndromeNd, List.toFinset_card_of_nodup h.nodesNd] at this

/-- Fewer indices than quadratures, and more than one. -/
theorem CodeOk.allCoords_length (hd : ∀ i, 2 ≤ code.dims i) :
    2 ≤ code.allCoords.length ∧ code.allCoords.length < 2 * (PyDict.keys code.graph.nodes).length := by
  constructor
  · -- two different qubits
    have hin : ∀ (bd : Bd) (d : ℕ) (a : ℤ), 2 ≤ d → (a = 1 ∨ a = 2) → inAxis bd d a := by
      intro bd d a hd ha
      cases bd <;> simp only [inAxis] <;> omega
    have two : ∀ x y : V, x ≠ y → x ∈ code.syndrome → y ∈ code.syndrome → 2 ≤ code.allCoords.length := by
      intro x y hxy hx hy
      rw [← h.mem_allCoords hd] at hx hy
      have : ({x, y} : Finset V) ⊆ code.allCoords.toFinset := by
        intro z hz
        rw [Finset.mem_insert, Finset.mem_singleton] at hz
        rw [List.mem_toFinset]
        rcases hz with rfl | rfl
        · exact hx
        · exact hy
      have h2 := Finset.card_le_card this
      rw [Finset.card_pair hxy] at h2
      exact h2.trans (List.toFinset_card_le _)
    cases he : code.ec with
    | primal =>
      apply two ![1, 1, 2] ![1, 2, 1] (by decide)
      · rw [h.syndrome, mem_qubits]
        refine ⟨fun i => hin _ _ _ (hd i) ?_, 2, ?_⟩
        · revert i; rw [forall3]; simp
        · rw [he]; decide
      · rw [h.syndrome, mem_qubits]
        refine ⟨fun i => hin _ _ _ (hd i) ?_, 1, ?_⟩
        · revert i; rw [forall3]; simp
        · rw [he]; decide
    | dual =>
      apply two ![1, 2, 2] ![2, 2, 1] (by decide)
      · rw [h.syndrome, mem_qubits]
        refine ⟨fun i => hin _ _ _ (hd i) ?_, 0, ?_⟩
        · revert i; rw [forall3]; simp
        · rw [he]; decide
      · rw [h.syndrome, mem_qubits]
        refine ⟨fun i => hin _ _ _ (hd i) ?_, 2, ?_⟩
        · revert i; rw [forall3]; simp
        · rw [he]; decide
  · have h1 : code.allCoords.length = ∑ a ∈ code.allCoords.toFinset, code.allCoords.count a :=
      (List.sum_toFinset_count_eq_length _).symm
    have h2 : ∑ a ∈ code.allCoords.toFinset, code.allCoords.count a ≤ ∑ a ∈ code.allCoords.toFinset, 2 :=
      Finset.sum_le_sum fun a _ => h.count_allCoords hd a
    have h3 : code.allCoords.toFinset = code.syndrome.toFinset := by
      ext x; rw [List.mem_toFinset, List.mem_toFinset, h.mem_allCoords hd]
    rw [h3, Finset.sum_const, List.toFinset_card_of_nodup h.syndromeNd, smul_eq_mul] at h2
    rw [h3] at h1
    have := h.syndrome_lt hd
    omega

end

end Flamingpy.SurfaceCode
