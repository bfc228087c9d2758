import Verif.Proofs.StabEdges
import Verif.Props.SurfaceCode

/-!
# C28, C29: the stabilizer graph

`stabGraph bk sp code`: the graph built with backend `bk`, the common vertex of two stabilizers being chosen
by `sp` (Python's `set.pop`, any element).
-/

namespace Flamingpy.SurfaceCode

open Flamingpy

theorem IsCode.stabGraph {code : Code} (h : IsCode code) (bk : Backend) (sp : SetPop) :
    (stabGraph bk sp code).edges = codeEdges sp code ∧ (stabGraph bk sp code).stabs = code.stabs ∧
    (stabGraph bk sp code).lowPts = code.boundPoints.take (code.boundPoints.length / 2) ∧
    (stabGraph bk sp code).highPts = code.boundPoints.drop (code.boundPoints.length / 2) := by
  rw [stabGraph_eq bk sp code (h.ok.1.bound_nodup h.ok.2)]
  exact ⟨rfl, rfl, rfl, rfl⟩

/-! ### C28 -/

/-- Both backends build the same graph, with each node and edge once. -/
theorem C28_backends {code : Code} (h : IsCode code) (sp : SetPop) :
    stabGraph .networkx sp code = stabGraph .rustworkx sp code ∧
    ∀ bk, (PyDict.keys (stabGraph bk sp code).edges).Nodup := by
  have hb := h.ok.1.bound_nodup h.ok.2
  refine ⟨by rw [stabGraph_eq .networkx sp code hb, stabGraph_eq .rustworkx sp code hb], fun bk => ?_⟩
  rw [(h.stabGraph bk sp).1]
  exact h.ok.1.codeEdges_nodup h.ok.2 sp

/-- An edge without a qubit is one that uses a connector. -/
theorem C28_connectors {code : Code} (h : IsCode code) (bk : Backend) (sp : SetPop) {e : Sym2 SNode × Option V}
    (he : e ∈ (stabGraph bk sp code).edges) : e.2 = none ↔ SNode.low ∈ e.1 ∨ SNode.high ∈ e.1 := by
  rw [(h.stabGraph bk sp).1] at he
  obtain ⟨e, c⟩ := e
  cases c with
  | none =>
    have := (edge_none sp he).1
    simp only [true_iff]
    tauto
  | some x =>
    have := h.ok.1.edge_effect h.ok.2 sp he
    simp [this.2.2.1, this.2.2.2]

/-- Flipping the qubit of an edge toggles exactly the stabilizers at the ends of the edge. -/
theorem C28_toggles {code : Code} (h : IsCode code) (bk : Backend) (sp : SetPop) {e : Sym2 SNode} {x : V}
    (he : (e, some x) ∈ (stabGraph bk sp code).edges) (bits : V → Bool) :
    x ∈ code.syndrome ∧ ∀ k (hk : k < code.stabs.length),
      (parity (flip bits x) code.stabs[k] ≠ parity bits code.stabs[k] ↔ SNode.stab k ∈ e) := by
  rw [(h.stabGraph bk sp).1] at he
  obtain ⟨h1, h2, _⟩ := h.ok.1.edge_effect h.ok.2 sp he
  refine ⟨h1, fun k hk => ?_⟩
  rw [← h2 k, List.getD_eq_getElem _ _ hk]
  have hnd : code.stabs[k].Nodup := ((C25_only_syndrome h).2.1 _ (List.getElem_mem hk)).1
  have hf : flip bits x = fun y => xor (bits y) (decide (y = x)) := by
    funext y; exact flip_apply bits x y
  rw [hf, parity_xor, parity_mem fun y => decide (y = x)]
  have hc : (code.stabs[k].filter fun y => decide (y = x)).length = code.stabs[k].count x := by
    rw [List.count, List.countP_eq_length_filter]
    congr 1
  rw [hc]
  by_cases hx : x ∈ code.stabs[k]
  · rw [List.count_eq_one_of_mem hnd hx]; simp [hx]
  · rw [List.count_eq_zero_of_not_mem hx]; simp [hx]

/-- Different edges carry different qubits. -/
theorem C28_distinct {code : Code} (h : IsCode code) (bk : Backend) (sp : SetPop) {e e' : Sym2 SNode} {x : V}
    (he : (e, some x) ∈ (stabGraph bk sp code).edges) (he' : (e', some x) ∈ (stabGraph bk sp code).edges) :
    e = e' := by
  rw [(h.stabGraph bk sp).1] at he he'
  exact h.ok.1.edge_unique h.ok.2 sp he he'

/-- Every syndrome qubit has an edge whose qubit belongs to the same stabilizers. -/
theorem C28_complete {code : Code} (h : IsCode code) (bk : Backend) (sp : SetPop) {x : V} (hx : x ∈ code.syndrome) :
    ∃ e y, (e, some y) ∈ (stabGraph bk sp code).edges ∧ ∀ s ∈ code.stabs, y ∈ s ↔ x ∈ s := by
  rw [(h.stabGraph bk sp).1]
  obtain ⟨e, y, he, hs⟩ := h.ok.1.qubit_edge h.ok.2 sp hx
  refine ⟨e, y, he, fun s hsm => ?_⟩
  obtain ⟨k, hk, rfl⟩ := List.getElem_of_mem hsm
  have := Finset.ext_iff.1 hs k
  rwa [mem_stabsOf', mem_stabsOf', List.getD_eq_getElem _ _ hk] at this

/-- The nodes: the two connectors, the stabilizers and the boundary points, each once. -/
theorem C28_nodes {code : Code} (h : IsCode code) (bk : Backend) (sp : SetPop) :
    (stabGraph bk sp code).nodes.Nodup ∧
    ∀ n, n ∈ (stabGraph bk sp code).nodes ↔ n = .low ∨ n = .high ∨ (∃ k < code.stabs.length, n = .stab k) ∨
      ∃ p ∈ code.boundPoints, n = .pt p := by
  have hb := h.ok.1.bound_nodup h.ok.2
  rw [stabGraph_eq bk sp code hb]
  constructor
  · simp only
    rw [List.nodup_append, List.nodup_append]
    refine ⟨⟨by simp, List.nodup_range.map fun a b h => by cases h; rfl, ?_⟩, hb.map fun a b h => by cases h; rfl, ?_⟩
    · rintro a ha b hb rfl
      rw [List.mem_map] at hb
      obtain ⟨k, _, rfl⟩ := hb
      simp at ha
    · rintro a ha b hb rfl
      rw [List.mem_map] at hb
      obtain ⟨k, _, rfl⟩ := hb
      simp at ha
  · intro n
    simp only [List.mem_append, List.mem_cons, List.not_mem_nil, or_false, List.mem_map, List.mem_range, or_assoc,
      @eq_comm _ n]

/-- The edges: the low connector to each point of the first half of the boundary points, the high connector
to each point of the second half, a stabilizer to each of its boundary points, and two stabilizers that have
a qubit in common; the latter two kinds carry the point, or a common qubit. -/
theorem C28_edges {code : Code} (h : IsCode code) (bk : Backend) (sp : SetPop) :
    (∀ e c, (e, c) ∈ (stabGraph bk sp code).edges →
      (∃ p ∈ code.boundPoints.take (code.boundPoints.length / 2), e = s(.low, .pt p) ∧ c = none) ∨
      (∃ p ∈ code.boundPoints.drop (code.boundPoints.length / 2), e = s(.high, .pt p) ∧ c = none) ∨
      (∃ i j x, i < j ∧ ∃ hj : j < code.stabs.length, ∃ hi : i < code.stabs.length,
        x ∈ code.stabs[i] ∧ x ∈ code.stabs[j] ∧ e = s(.stab i, .stab j) ∧ c = some x) ∨
      (∃ k p, p ∈ code.boundPoints ∧ ∃ hk : k < code.stabs.length, p ∈ code.stabs[k] ∧
        e = s(.stab k, .pt p) ∧ c = some p)) ∧
    (∀ p ∈ code.boundPoints.take (code.boundPoints.length / 2), (s(.low, .pt p), none) ∈ (stabGraph bk sp code).edges) ∧
    (∀ p ∈ code.boundPoints.drop (code.boundPoints.length / 2), (s(.high, .pt p), none) ∈ (stabGraph bk sp code).edges) ∧
    (∀ i j x, ∀ hi : i < code.stabs.length, ∀ hj : j < code.stabs.length, i ≠ j → x ∈ code.stabs[i] →
      x ∈ code.stabs[j] → ∃ y, (s(.stab i, .stab j), some y) ∈ (stabGraph bk sp code).edges) ∧
    (∀ k p, ∀ hk : k < code.stabs.length, p ∈ code.boundPoints → p ∈ code.stabs[k] →
      (s(.stab k, .pt p), some p) ∈ (stabGraph bk sp code).edges) := by
  rw [(h.stabGraph bk sp).1]
  refine ⟨?_, ?_, ?_, ?_, ?_⟩
  · intro e c he
    rcases mem_codeEdges.1 he with ⟨p, hp, h1⟩ | ⟨p, hp, h1⟩ | ⟨i, j, hij, hj, hc, h1⟩ | ⟨k, p, hk, hp, hpk, h1⟩
    · exact Or.inl ⟨p, hp, Prod.mk.inj h1⟩
    · exact Or.inr (Or.inl ⟨p, hp, Prod.mk.inj h1⟩)
    · obtain ⟨h2, h3⟩ := pop_mem sp hc
      have hi : i < code.stabs.length := by omega
      exact Or.inr (Or.inr (Or.inl ⟨i, j, _, hij, hj, hi, by rw [← List.getD_eq_getElem _ [] hi]; exact h2,
        by rw [← List.getD_eq_getElem _ [] hj]; exact h3, Prod.mk.inj h1⟩))
    · exact Or.inr (Or.inr (Or.inr ⟨k, p, hp, hk, by rwa [List.getD_eq_getElem _ [] hk] at hpk, Prod.mk.inj h1⟩))
  · intro p hp; exact mem_codeEdges.2 (Or.inl ⟨p, hp, rfl⟩)
  · intro p hp; exact mem_codeEdges.2 (Or.inr (Or.inl ⟨p, hp, rfl⟩))
  · intro i j x hi hj hij h1 h2
    obtain ⟨y, hy, _⟩ := h.ok.1.joined h.ok.2 sp hij (by rw [List.getD_eq_getElem _ [] hi]; exact h1)
      (by rw [List.getD_eq_getElem _ [] hj]; exact h2)
    exact ⟨y, hy⟩
  · intro k p hk hp h1
    exact mem_codeEdges.2 (Or.inr (Or.inr (Or.inr ⟨k, p, hk, hp, by rw [List.getD_eq_getElem _ [] hk]; exact h1, rfl⟩)))

/-! ### C29 -/

theorem reach_noConn {code : Code} (h : IsCode code) (bk : Backend) (sp : SetPop) (w : V → ℚ) {k k' : ℕ}
    (hk : k < code.stabs.length) (hk' : k' < code.stabs.length) :
    Reach (withoutConnectors (weightedEdges (stabGraph bk sp code) w)) (.stab k) (.stab k') := by
  apply h.ok.1.stabs_reach h.ok.2 sp _ hk hk'
  intro i j y hy
  rw [mem_keys_withoutConnectors, keys_weightedEdges, (h.stabGraph bk sp).1]
  exact ⟨List.mem_map.2 ⟨_, hy, rfl⟩, by simp, by simp⟩

/-- Stabilizers reach each other without the connectors. -/
theorem C29_connected {code : Code} (h : IsCode code) (bk : Backend) (sp : SetPop) (w : V → ℚ) {k k' : ℕ}
    (hk : k < code.stabs.length) (hk' : k' < code.stabs.length) :
    ∃ p, IsWalk (withoutConnectors (weightedEdges (stabGraph bk sp code) w)) (.stab k) (.stab k') p :=
  reach_noConn h bk sp w hk hk'

theorem slice_point {code : Code} (h : IsCode code) (hb : code.boundaries = .open) {f : ℤ}
    (hf : f = lowF code.ec ∨ f = highF code.ec (code.dims (openAxis code.ec))) :
    ∃ x ∈ code.syndrome, x (openAxis code.ec) = f := by
  obtain ⟨hok, hd⟩ := h.ok
  have hax : boundsOf code.ec code.boundaries (openAxis code.ec) = code.ec.toBd := (bds_open_iff _ _ _).2 ⟨hb, rfl⟩
  obtain ⟨c0, hc0⟩ : ∃ c0, c0 ∈ cells code.ec code.dims (boundsOf code.ec code.boundaries) := by
    refine ⟨fun _ => match code.ec with
      | .primal => 1
      | .dual => 2, mem_cells.2 ⟨?_, ?_⟩⟩
    · intro j
      have := hd j
      cases code.ec <;> simp only [inAxis] <;> split <;> omega
    · intro j; cases code.ec <;> rfl
  refine ⟨Function.update c0 (openAxis code.ec) f, ?_, by simp⟩
  rw [hok.syndrome]
  have := hd (openAxis code.ec)
  apply line_mem hc0
  · rw [hax]
    generalize code.dims (openAxis code.ec) = d at *
    revert hf
    cases code.ec <;> simp only [Ec.toBd, inAxis, lowF, highF] <;> omega
  · revert hf
    cases code.ec <;> simp only [lowF, highF, facePar, cellPar] <;> omega

/-- With open boundaries every stabilizer is reachable from both connectors. -/
theorem C29_connectors {code : Code} (h : IsCode code) (hb : code.boundaries = .open) (bk : Backend) (sp : SetPop)
    (w : V → ℚ) {k : ℕ} (hk : k < code.stabs.length) :
    (∃ p, IsWalk (weightedEdges (stabGraph bk sp code) w) .low (.stab k) p) ∧
    (∃ p, IsWalk (weightedEdges (stabGraph bk sp code) w) .high (.stab k) p) := by
  obtain ⟨hok, hd⟩ := h.ok
  have hkeys : ∀ e, e ∈ PyDict.keys (weightedEdges (stabGraph bk sp code) w) ↔ e ∈ PyDict.keys (codeEdges sp code) := by
    intro e; rw [keys_weightedEdges, (h.stabGraph bk sp).1]
  have hfrom : ∀ p ∈ code.boundPoints, Reach (weightedEdges (stabGraph bk sp code) w) (.pt p) (.stab k) := by
    intro p hp
    have hps := ((hok.mem_bound p).1 hp).1
    have hc := hok.stabsOf_card hd hps
    rw [if_pos hp] at hc
    obtain ⟨j, hj⟩ := Finset.card_eq_one.1 hc
    have hjm : j ∈ stabsOf code.stabs p := by rw [hj]; simp
    obtain ⟨h1, h2⟩ := mem_stabsOf.1 hjm
    apply Reach.cons (b := .stab j)
    · rw [hkeys, Sym2.eq_swap]
      exact List.mem_map.2 ⟨_, mem_codeEdges.2 (Or.inr (Or.inr (Or.inr ⟨j, p, h1, hp, h2, rfl⟩))), rfl⟩
    · apply hok.stabs_reach hd sp _ h1 hk
      intro i j y hy
      rw [hkeys]
      exact List.mem_map.2 ⟨_, hy, rfl⟩
  have hlow : ∃ p, p ∈ code.boundPoints.take (code.boundPoints.length / 2) := by
    obtain ⟨x, hx, hxe⟩ := slice_point h hb (Or.inl rfl)
    refine ⟨x, ((C27_low_high h hb).2.1 x).2 ⟨hx, ?_⟩⟩
    revert hxe
    cases code.ec <;> exact fun h => h
  have hhigh : ∃ p, p ∈ code.boundPoints.drop (code.boundPoints.length / 2) := by
    obtain ⟨x, hx, hxe⟩ := slice_point h hb (Or.inr rfl)
    refine ⟨x, ((C27_low_high h hb).2.2 x).2 ⟨hx, ?_⟩⟩
    revert hxe
    cases code.ec <;> exact fun h => h
  obtain ⟨p, hp⟩ := hlow
  obtain ⟨q, hq⟩ := hhigh
  constructor
  · apply Reach.cons (b := .pt p) _ (hfrom p (List.mem_of_mem_take hp))
    rw [hkeys]
    exact List.mem_map.2 ⟨_, mem_codeEdges.2 (Or.inl ⟨p, hp, rfl⟩), rfl⟩
  · apply Reach.cons (b := .pt q) _ (hfrom q (List.mem_of_mem_drop hq))
    rw [hkeys]
    exact List.mem_map.2 ⟨_, mem_codeEdges.2 (Or.inr (Or.inl ⟨q, hq, rfl⟩)), rfl⟩

/-! ### Concrete cases -/

/-- `set.pop` returning the first element. -/
def headPop : SetPop := ⟨fun _ _ l => l.headD (fun _ => 0), fun _ _ l hl => by cases l with
  | nil => exact absurd rfl hl
  | cons a l => simp⟩

-- the smallest open code: 8 connector edges, 4 edges between stabilizers, 8 to boundary points
example : (surfaceCode idOrder .primal .open (fun _ => 2) none).map
    (fun c => ((stabGraph .rustworkx headPop c).nodes.length, (stabGraph .rustworkx headPop c).edges.length,
      (stabGraph .networkx headPop c).edges.countP fun e => decide (e.2 = none))) = some (14, 20, 8) := by
  decide +kernel

end Flamingpy.SurfaceCode
