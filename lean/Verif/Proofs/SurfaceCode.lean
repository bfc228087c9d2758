import Verif.Proofs.Complex
import Mathlib.Data.List.Forall2

/-! # The attributes of a `SurfaceCode` in terms of cells and qubits -/

namespace Flamingpy.SurfaceCode

open Flamingpy

variable {ec : Ec} {dims : Fin 3 → ℕ} {bds : Fin 3 → Bd}

theorem qubit_isNode {x : V} (hx : x ∈ qubits ec dims bds) : isNode dims bds x := by
  rw [mem_qubits] at hx
  obtain ⟨hb, i, hi⟩ := hx
  refine isNode_iff.2 ⟨hb, i, ?_⟩
  unfold Special
  unfold FaceAt at hi
  cases ec <;> simp only [facePar, cellPar] at hi
  · left; exact ⟨by omega, hi.2⟩
  · right; exact ⟨by omega, hi.2⟩

theorem nth_around (c : V) (i : Fin 3) :
    nth (around c) i.val = Function.update c i (c i - 1) ∧
      nth (around c) (3 + i.val) = Function.update c i (c i + 1) := by
  revert i
  rw [forall3]
  exact ⟨⟨rfl, rfl⟩, ⟨rfl, rfl⟩, rfl, rfl⟩

theorem mem_virtualPoints (c x : V) :
    x ∈ virtualPoints ec dims bds (around c) ↔
      ∃ i, bds i = .periodic ∧
        ((ec = .dual ∧ c i = 0 ∧ x = Function.update c i (2 * (dims i : ℤ) - 1)) ∨
         (ec = .primal ∧ c i = 2 * (dims i : ℤ) - 1 ∧ x = Function.update c i 0)) := by
  unfold virtualPoints
  rw [List.mem_filterMap]
  simp only [List.mem_filter, List.mem_finRange, true_and, decide_eq_true_eq]
  apply exists_congr
  intro i
  apply and_congr_right
  intro _
  cases ec
  · simp only [(nth_around c i).1, Function.update_self, Function.update_idem, reduceCtorEq, false_and,
      true_and, false_or]
    split_ifs with h
    · rw [Option.some.injEq, eq_comm]; exact ⟨fun h' => ⟨by omega, h'⟩, fun h' => h'.2⟩
    · simp only [false_iff, not_and]; omega
  · simp only [(nth_around c i).2, Function.update_self, Function.update_idem, reduceCtorEq, false_and,
      true_and, or_false]
    split_ifs with h
    · rw [Option.some.injEq, eq_comm]; exact ⟨fun h' => ⟨by omega, h'⟩, fun h' => h'.2⟩
    · simp only [false_iff, not_and]; omega

section
variable {nodes : List V} (hn : ∀ x, x ∈ nodes ↔ isNode dims bds x) (hd : ∀ i, 1 ≤ dims i)
include hn hd

theorem mem_actualStabe (o : SetOrder) (n : ℕ) {c : V} (hc : c ∈ cells ec dims bds) (x : V) :
    x ∈ actualStabe o n ec dims bds nodes (around c) ↔ inBox dims bds x ∧ adjacent dims bds x c := by
  have hcb := (mem_cells.1 hc).1
  have hcp := (mem_cells.1 hc).2
  rw [adj_cell_iff hcb]
  set A := o.ord n ((around c).dedup.filter fun p => decide (p ∈ nodes)) with hA
  have hmA : ∀ x, x ∈ A ↔ x ∈ around c ∧ x ∈ nodes := by
    intro x
    rw [hA, (o.perm n _).mem_iff, List.mem_filter, List.mem_dedup, decide_eq_true_eq]
  have hlen : ∀ y, y ∈ around c → y ∉ nodes → A.length < 6 := by
    intro y hy hyn
    rw [hA, (o.perm n _).length_eq]
    have h1 : ((around c).dedup.filter fun p => decide (p ∈ nodes)).length < (around c).dedup.length := by
      rw [List.length_filter_lt_length_iff_exists]
      exact ⟨y, List.mem_dedup.2 hy, by simpa using hyn⟩
    have h2 : (around c).dedup.length ≤ 6 := (List.dedup_sublist _).length_le
    omega
  -- the direct points
  have hdir : ∀ i f, (f = c i - 1 ∨ f = c i + 1) →
      (Function.update c i f ∈ nodes ↔ inAxis (bds i) (dims i) f) := by
    intro i f hf
    rw [hn]
    constructor
    · intro h; simpa using h.1 i
    · intro h
      apply qubit_isNode (ec := ec)
      apply adj_cell_qubit hc (inBox_update hcb h)
      apply adjacent_symm.1
      apply adjacent_update
      unfold nextTo; omega
  have hA1 : ∀ x, x ∈ A → ∃ i, ∃ f ∈ nb (bds i) (dims i) (c i), x = Function.update c i f := by
    intro x hx
    obtain ⟨h1, h2⟩ := (hmA x).1 hx
    rw [mem_around] at h1
    obtain ⟨i, h | h⟩ := h1
    · refine ⟨i, c i - 1, mem_nb.2 ⟨(hdir i _ (Or.inl rfl)).1 (h ▸ h2), by unfold nextTo; omega⟩, h⟩
    · refine ⟨i, c i + 1, mem_nb.2 ⟨(hdir i _ (Or.inr rfl)).1 (h ▸ h2), by unfold nextTo; omega⟩, h⟩
  have hV1 : ∀ x, x ∈ virtualPoints ec dims bds (around c) →
      ∃ i, ∃ f ∈ nb (bds i) (dims i) (c i), x = Function.update c i f := by
    intro x hx
    rw [mem_virtualPoints] at hx
    obtain ⟨i, hp, ⟨_, h0, rfl⟩ | ⟨_, h0, rfl⟩⟩ := hx
    · refine ⟨i, _, mem_nb.2 ⟨?_, Or.inr (Or.inr ⟨hp, Or.inl ⟨h0, rfl⟩⟩)⟩, rfl⟩
      have := hd i
      rw [hp]; simp only [inAxis]; omega
    · refine ⟨i, _, mem_nb.2 ⟨?_, Or.inr (Or.inr ⟨hp, Or.inr ⟨h0, rfl⟩⟩)⟩, rfl⟩
      have := hd i
      rw [hp]; simp only [inAxis]; omega
  -- completeness
  have hcomp : ∀ i f, f ∈ nb (bds i) (dims i) (c i) → Function.update c i f ∈ A ∨
      (A.length < 6 ∧ Function.update c i f ∈ virtualPoints ec dims bds (around c)) := by
    intro i f hf
    rw [mem_nb] at hf
    obtain ⟨hfa, hnext⟩ := hf
    by_cases hdirect : f = c i - 1 ∨ f = c i + 1
    · left
      rw [hmA, mem_around]
      refine ⟨⟨i, ?_⟩, (hdir i f hdirect).2 hfa⟩
      rcases hdirect with rfl | rfl
      · exact Or.inl rfl
      · exact Or.inr rfl
    · right
      rcases hnext with h | h | ⟨hp, ⟨h0, h1⟩ | ⟨h0, h1⟩⟩
      · omega
      · omega
      · -- c i = 0, so the cell parity is even
        have hec : ec = .dual := by
          cases ec
          · have := hcp i; simp only [cellPar] at this; omega
          · rfl
        refine ⟨?_, ?_⟩
        · apply hlen (Function.update c i (c i - 1))
          · rw [mem_around]; exact ⟨i, Or.inl rfl⟩
          · rw [hdir i _ (Or.inl rfl), hp]; simp only [inAxis]; omega
        · rw [mem_virtualPoints]; exact ⟨i, hp, Or.inl ⟨hec, h0, by rw [h1]⟩⟩
      · have hec : ec = .primal := by
          cases ec
          · rfl
          · have := hcp i; simp only [cellPar] at this; omega
        refine ⟨?_, ?_⟩
        · apply hlen (Function.update c i (c i + 1))
          · rw [mem_around]; exact ⟨i, Or.inr rfl⟩
          · rw [hdir i _ (Or.inr rfl), hp]; simp only [inAxis]; omega
        · rw [mem_virtualPoints]; exact ⟨i, hp, Or.inr ⟨hec, h0, by rw [h1]⟩⟩
  have hdef : actualStabe o n ec dims bds nodes (around c) =
      if A.length < 6 then A ++ virtualPoints ec dims bds (around c) else A := rfl
  rw [hdef]
  constructor
  · intro hx
    split_ifs at hx
    · rcases List.mem_append.1 hx with h | h
      · exact hA1 x h
      · exact hV1 x h
    · exact hA1 x hx
  · rintro ⟨i, f, hf, rfl⟩
    rcases hcomp i f hf with h | ⟨h1, h2⟩
    · split_ifs
      · exact List.mem_append_left _ h
      · exact h
    · rw [if_pos h1]; exact List.mem_append_right _ h2

theorem actualStabe_nodes (o : SetOrder) (n : ℕ) {c : V} (hc : c ∈ cells ec dims bds) (x : V)
    (hx : x ∈ actualStabe o n ec dims bds nodes (around c)) : x ∈ nodes := by
  rw [mem_actualStabe hn hd o n hc] at hx
  rw [hn]
  exact qubit_isNode (adj_cell_qubit hc hx.1 hx.2)

theorem mem_stabCoords (o : SetOrder) (n : ℕ) {c : V} (hc : c ∈ cells ec dims bds) (x : V) :
    x ∈ stabCoords nodes (actualStabe o n ec dims bds nodes (around c)) ↔
      inBox dims bds x ∧ adjacent dims bds x c := by
  unfold stabCoords
  rw [List.mem_dedup, List.mem_filter, decide_eq_true_eq, ← mem_actualStabe hn hd o n hc]
  exact ⟨fun h => h.1, fun h => ⟨h, actualStabe_nodes hn hd o n hc x h⟩⟩

end

theorem forall₂_zipIdx_map {α β : Type} {R : α → β → Prop} (F : α → ℕ → β) (l : List α) (k : ℕ)
    (h : ∀ a ∈ l, ∀ n, R a (F a n)) : List.Forall₂ R l ((l.zipIdx k).map fun e => F e.1 e.2) := by
  induction l generalizing k with
  | nil => exact List.Forall₂.nil
  | cons a l ih =>
    rw [List.zipIdx_cons, List.map_cons]
    exact List.Forall₂.cons (h a (by simp) k) (ih _ fun b hb => h b (by simp [hb]))

/-- A stabilizer is the set of qubits adjacent to its centre. -/
def StabAt (dims : Fin 3 → ℕ) (bds : Fin 3 → Bd) (c : V) (s : List V) : Prop :=
  s.Nodup ∧ ∀ x, x ∈ s ↔ inBox dims bds x ∧ adjacent dims bds x c

theorem actuals_eq (o : SetOrder) (nodes : List V) :
    actuals o ec dims bds nodes =
      (centers ec dims bds).zipIdx.map fun e => actualStabe o (10 + e.2) ec dims bds nodes (around e.1) := by
  unfold actuals
  rw [sixBodies_eq, List.zipIdx_map, List.map_map]
  rfl

theorem stabs_forall₂ {nodes : List V} (hn : ∀ x, x ∈ nodes ↔ isNode dims bds x) (hd : ∀ i, 1 ≤ dims i)
    (o : SetOrder) :
    List.Forall₂ (StabAt dims bds) (centers ec dims bds)
      ((actuals o ec dims bds nodes).map (stabCoords nodes)) := by
  rw [actuals_eq, List.map_map]
  apply forall₂_zipIdx_map (F := fun c n => stabCoords nodes (actualStabe o (10 + n) ec dims bds nodes (around c)))
  intro c hc n
  exact ⟨List.nodup_dedup _, mem_stabCoords hn hd o _ (mem_centers_iff_cells.1 hc)⟩

/-- Every qubit is next to a cell. -/
theorem qubit_has_cell (hd : goodDims dims bds) {x : V} (hx : x ∈ qubits ec dims bds) :
    ∃ c ∈ cells ec dims bds, adjacent dims bds x c := by
  obtain ⟨hb, i, hi⟩ := mem_qubits.1 hx
  have hne : (nb (bds i) (dims i) (x i)).Nonempty := by
    have : inAxis (bds i) (dims i) (x i + 1) ∨ inAxis (bds i) (dims i) (x i - 1) := by
      by_cases h : x i % 2 = 0
      · exact axis_even_has (hd i) (hb i) h
      · exact axis_odd_has (hd i) (hb i) (by omega)
    rcases this with h | h
    · exact ⟨_, mem_nb.2 ⟨h, by unfold nextTo; omega⟩⟩
    · exact ⟨_, mem_nb.2 ⟨h, by unfold nextTo; omega⟩⟩
  obtain ⟨b, hbn⟩ := hne
  have : Function.update x i b ∈ (cells ec dims bds).filter (fun c => adjacent dims bds x c) := by
    rw [cells_of_qubit hb hi]; exact Finset.mem_image_of_mem _ hbn
  rw [Finset.mem_filter] at this
  exact ⟨_, this⟩

theorem mem_actuals_flatten {nodes : List V} (hn : ∀ x, x ∈ nodes ↔ isNode dims bds x) (hd : goodDims dims bds)
    (o : SetOrder) (x : V) : x ∈ (actuals o ec dims bds nodes).flatten ↔ x ∈ qubits ec dims bds := by
  have hd1 : ∀ i, 1 ≤ dims i := fun i => (hd i).1
  rw [actuals_eq, List.mem_flatten]
  constructor
  · rintro ⟨l, hl, hx⟩
    rw [List.mem_map] at hl
    obtain ⟨⟨c, n⟩, hcn, rfl⟩ := hl
    have hc := mem_centers_iff_cells.1 (List.mem_zipIdx' hcn |>.2 ▸ List.getElem_mem _)
    rw [mem_actualStabe hn hd1 o _ hc] at hx
    exact adj_cell_qubit hc hx.1 hx.2
  · intro hx
    obtain ⟨c, hc, hadj⟩ := qubit_has_cell hd hx
    have hc' := mem_centers_iff_cells.2 hc
    obtain ⟨n, hn1, hn2⟩ := List.getElem_of_mem hc'
    refine ⟨_, List.mem_map.2 ⟨(c, n), ?_, rfl⟩, ?_⟩
    · rw [List.mem_zipIdx_iff_getElem?, List.getElem?_eq_getElem hn1, hn2]
    · rw [mem_actualStabe hn hd1 o _ hc]
      exact ⟨(mem_qubits.1 hx).1, hadj⟩

/-- What is known about a constructed `SurfaceCode`. -/
structure CodeOk (code : Code) : Prop where
  graphNodes : ∀ x, x ∈ PyDict.keys code.graph.nodes ↔ isNode code.dims (boundsOf code.ec code.boundaries) x
  graphEdges : ∀ x y, s(x, y) ∈ PyDict.keys code.graph.edges ↔
    isNode code.dims (boundsOf code.ec code.boundaries) x ∧ isNode code.dims (boundsOf code.ec code.boundaries) y ∧
      adjacent code.dims (boundsOf code.ec code.boundaries) x y
  stabs : List.Forall₂ (StabAt code.dims (boundsOf code.ec code.boundaries))
    (centers code.ec code.dims (boundsOf code.ec code.boundaries)) code.stabs
  syndrome : ∀ x, x ∈ code.syndrome ↔ x ∈ qubits code.ec code.dims (boundsOf code.ec code.boundaries)
  syndromeNd : code.syndrome.Nodup
  bound : ∃ o : SetOrder, code.boundPoints = boundPointsOf o code.ec code.boundaries code.dims
    (PyDict.keys code.graph.nodes) code.syndrome
  nodesNd : (PyDict.keys code.graph.nodes).Nodup
  allCoords : ∃ o : SetOrder, code.allCoords = (actuals o code.ec code.dims
    (boundsOf code.ec code.boundaries) (PyDict.keys code.graph.nodes)).flatten

theorem goodDims_of_two {dims : Fin 3 → ℕ} (hd : ∀ i, 2 ≤ dims i) (bds : Fin 3 → Bd) : goodDims dims bds :=
  fun i => ⟨by have := hd i; omega, fun _ => hd i⟩

/-- The constructor succeeds, and the attributes are as described. -/
theorem surfaceCode_ok (o : SetOrder) (ec : Ec) (b : Boundaries) {dims : Fin 3 → ℕ} (hd : ∀ i, 2 ≤ dims i)
    (pol : Option (V → V → ℤ)) :
    ∃ code, surfaceCode o ec b dims pol = some code ∧ code.dims = dims ∧ code.ec = ec ∧ code.boundaries = b ∧
      CodeOk code := by
  have hg := goodDims_of_two hd (boundsOf ec b)
  have hv : ∀ x, x ∈ o.ord 0 (denested dims (boundsOf ec b)) ↔ x ∈ denested dims (boundsOf ec b) :=
    fun x => (o.perm 0 _).mem_iff
  have hn := rhg_keys hg pol hv
  unfold surfaceCode
  simp only
  rw [if_pos]
  · refine ⟨_, rfl, rfl, rfl, rfl, ?_⟩
    constructor
    · exact hn
    · exact rhg_edges hg pol hv
    · exact stabs_forall₂ hn (fun i => (hg i).1) o
    · intro x
      simp only
      rw [(o.perm 3 _).mem_iff, List.mem_dedup]
      exact mem_actuals_flatten hn hg o x
    · exact (o.perm 3 _).nodup_iff.2 (List.nodup_dedup _)
    · exact ⟨o, rfl⟩
    · exact (rhgGraph_built _ _ _ _).nodesNd
    · exact ⟨o, rfl⟩
  · rw [List.all_eq_true]
    intro x hx
    rw [mem_actuals_flatten hn hg o] at hx
    simpa using (hn x).2 (qubit_isNode hx)

end Flamingpy.SurfaceCode
