import Verif.Proofs.GraphStates
import Mathlib.Combinatorics.SimpleGraph.Hasse
import Mathlib.Combinatorics.SimpleGraph.CycleGraph
import Mathlib.Combinatorics.SimpleGraph.Star

/-! # C51: the standard graph states -/

namespace Flamingpy.GraphStates

noncomputable section

/-- The call returned a graph that is a copy of `G`: one node per vertex, at distinct positions, and one edge per
edge of `G`, no more. -/
def HasShape (r : Res) {n : ℕ} (G : SimpleGraph (Fin n)) : Prop :=
  ∃ g, r = .ok g ∧ ∃ pos : Fin n → Pos, Function.Injective pos ∧ g.nodes.Perm (List.ofFn pos) ∧ g.edges.Nodup ∧
    ∀ e, e ∈ g.edges ↔ ∃ i j, G.Adj i j ∧ e = s(pos i, pos j)

/-- Anything but an integer of at least 1 is rejected. -/
theorem C51_rejects (a : Arg) (h : ∀ n, a = .int n → n < 1) :
    linearCluster a = .valueError ∧ starGraph a = .valueError ∧ ringGraph a = .valueError ∧
      completeGraph a = .valueError := by
  unfold linearCluster starGraph ringGraph completeGraph generic
  cases a with
  | other => exact ⟨rfl, rfl, rfl, rfl⟩
  | int n =>
    have := h n rfl
    simp [this]

theorem generic_ok {n : ℕ} (hn : 1 ≤ n) (body : ℕ → GS → GS) : generic (.int n) body = .ok (body n ⟨[], []⟩) := by
  unfold generic
  simp only
  rw [if_neg (by omega), Int.toNat_natCast]

/-- A single node. -/
theorem shape_one (r : Res) (h : r = .ok (addNode ⟨[], []⟩ (0, 0, 0))) (G : SimpleGraph (Fin 1)) : HasShape r G := by
  refine ⟨_, h, fun _ => (0, 0, 0), fun i j _ => Subsingleton.elim i j, ?_, ?_, ?_⟩
  · simp [addNode, List.ofFn_succ]
  · simp [addNode]
  · intro e
    simp only [addNode, List.not_mem_nil, if_false, false_iff]
    rintro ⟨i, j, h1, _⟩
    rw [Subsingleton.elim i j] at h1
    exact G.irrefl h1

/-- A graph made from a list of edges. -/
theorem shape_of_edges {n : ℕ} (G : SimpleGraph (Fin n)) (l : List (Pos × Pos)) (pos : Fin n → Pos)
    (hinj : Function.Injective pos) (h1 : ∀ e ∈ l, ∃ i j, G.Adj i j ∧ e = (pos i, pos j))
    (h2 : ∀ i j, G.Adj i j → ∃ e ∈ l, s(pos i, pos j) = s(e.1, e.2)) (h3 : ∀ i, ∃ j, G.Adj i j) :
    HasShape (.ok (addEdges ⟨[], []⟩ l)) G := by
  have hok : Ok ⟨[], []⟩ := ⟨by simp, by simp⟩
  refine ⟨_, rfl, pos, hinj, ?_, (addEdges_ok hok l).edges, ?_⟩
  · rw [List.perm_ext_iff_of_nodup (addEdges_ok hok l).nodes (List.nodup_ofFn.2 hinj)]
    intro x
    rw [addEdges_nodes, List.mem_ofFn']
    simp only [List.not_mem_nil, false_or]
    constructor
    · rintro ⟨e, he, hx⟩
      obtain ⟨i, j, _, rfl⟩ := h1 e he
      rcases hx with rfl | rfl
      · exact ⟨i, rfl⟩
      · exact ⟨j, rfl⟩
    · rintro ⟨i, rfl⟩
      obtain ⟨j, hj⟩ := h3 i
      obtain ⟨e, he, hs⟩ := h2 i j hj
      refine ⟨e, he, ?_⟩
      have : pos i ∈ s(e.1, e.2) := hs ▸ Sym2.mem_mk_left _ _
      exact Sym2.mem_iff.1 this
  · intro e
    rw [addEdges_edges]
    simp only [List.not_mem_nil, false_or]
    constructor
    · rintro ⟨f, hf, rfl⟩
      obtain ⟨i, j, h, rfl⟩ := h1 f hf
      exact ⟨i, j, h, rfl⟩
    · rintro ⟨i, j, h, rfl⟩
      exact h2 i j h

/-- `linear_cluster(n)` is the path with `n` vertices. -/
theorem C51_linear (n : ℕ) (hn : 1 ≤ n) : HasShape (linearCluster (.int n)) (SimpleGraph.pathGraph n) := by
  rcases Nat.lt_or_ge n 2 with h | h
  · obtain rfl : n = 1 := by omega
    exact shape_one _ (by unfold linearCluster; rw [generic_ok (by omega)]; simp) _
  · have e : linearCluster (.int n) = .ok (addEdges ⟨[], []⟩
        ((List.range (n - 1)).map fun (i : ℕ) => (((i : ℝ), 0, 0), ((i : ℝ) + 1, 0, 0)))) := by
      unfold linearCluster addEdges
      rw [generic_ok hn, if_neg (by omega), List.foldl_map]
    rw [e]
    refine shape_of_edges _ _ (fun i => ((i.val : ℝ), 0, 0)) ?_ ?_ ?_ ?_
    · intro i j hij
      simp only [Prod.mk.injEq, Nat.cast_inj, and_true] at hij
      exact Fin.ext hij
    · intro e he
      obtain ⟨i, hi, rfl⟩ := List.mem_map.1 he
      rw [List.mem_range] at hi
      refine ⟨⟨i, by omega⟩, ⟨i + 1, by omega⟩, ?_, by simp⟩
      rw [SimpleGraph.pathGraph_adj]
      exact Or.inl rfl
    · intro i j hij
      rw [SimpleGraph.pathGraph_adj] at hij
      have key : ∀ a b : Fin n, a.val + 1 = b.val → ∃ e ∈ (List.range (n - 1)).map fun (i : ℕ) =>
          ((((i : ℝ), 0, 0), ((i : ℝ) + 1, 0, 0)) : Pos × Pos),
          s((((a.val : ℝ), 0, 0) : Pos), ((b.val : ℝ), 0, 0)) = s(e.1, e.2) := by
        intro a b hab
        refine ⟨_, List.mem_map.2 ⟨a.val, by rw [List.mem_range]; omega, rfl⟩, ?_⟩
        rw [← hab]; push_cast; rfl
      rcases hij with hij | hij
      · exact key i j hij
      · obtain ⟨e, he, hs⟩ := key j i hij
        exact ⟨e, he, by rw [Sym2.eq_swap]; exact hs⟩
    · intro i
      rcases Nat.lt_or_ge (i.val + 1) n with h1 | h1
      · exact ⟨⟨i.val + 1, h1⟩, by rw [SimpleGraph.pathGraph_adj]; exact Or.inl rfl⟩
      · exact ⟨⟨i.val - 1, by omega⟩, by rw [SimpleGraph.pathGraph_adj]; right; show i.val - 1 + 1 = i.val; omega⟩

/-- `bell()` is a single edge. -/
theorem C51_bell : HasShape bell (⊤ : SimpleGraph (Fin 2)) := by
  have := C51_linear 2 (by omega)
  have e : SimpleGraph.pathGraph 2 = ⊤ := by
    ext u v
    rw [SimpleGraph.pathGraph_adj, SimpleGraph.top_adj, ne_eq, Fin.ext_iff]
    omega
  rw [e] at this
  exact this

/-- `star_graph(n)` is the star with `n - 1` leaves. -/
theorem C51_star (n : ℕ) (hn : 1 ≤ n) : HasShape (starGraph (.int n)) (SimpleGraph.starGraph (⟨0, hn⟩ : Fin n)) := by
  rcases Nat.lt_or_ge n 2 with h | h
  · obtain rfl : n = 1 := by omega
    exact shape_one _ (by unfold starGraph; rw [generic_ok (by omega)]; simp) _
  · have hcast : ((n : ℝ) - 1) = ((n - 1 : ℕ) : ℝ) := by push_cast [Nat.cast_sub hn]; rfl
    have e : starGraph (.int n) = .ok (addEdges ⟨[], []⟩
        ((List.range (n - 1)).map fun (i : ℕ) => ((0, 0, 0), circ (2 * Real.pi * i / (n - 1 : ℕ))))) := by
      unfold starGraph addEdges
      rw [generic_ok hn, if_neg (by omega), List.foldl_map]
      simp only [hcast]
      rfl
    rw [e]
    have hc0 : ∀ t, circ t ≠ (0, 0, 0) := by
      intro t ht
      unfold circ at ht
      simp only [Prod.mk.injEq, and_true] at ht
      have := Real.sin_sq_add_cos_sq t
      rw [ht.1, ht.2] at this
      norm_num at this
    refine shape_of_edges _ _ (fun i => if i.val = 0 then (0, 0, 0) else circ (2 * Real.pi * ((i.val - 1 : ℕ) : ℝ) / (n - 1 : ℕ)))
      ?_ ?_ ?_ ?_
    · intro i j hij
      simp only at hij
      split_ifs at hij with h1 h2 h2
      · exact Fin.ext (h1.trans h2.symm)
      · exact absurd hij.symm (hc0 _)
      · exact absurd hij (hc0 _)
      · have := circ_inj (m := n - 1) (by omega) (by omega) hij
        exact Fin.ext (by omega)
    · intro e he
      obtain ⟨i, hi, rfl⟩ := List.mem_map.1 he
      rw [List.mem_range] at hi
      refine ⟨⟨0, hn⟩, ⟨i + 1, by omega⟩, ?_, by simp⟩
      rw [SimpleGraph.starGraph_adj]
      exact ⟨by rw [ne_eq, Fin.ext_iff]; simp, Or.inl rfl⟩
    · intro i j hij
      rw [SimpleGraph.starGraph_adj, ne_eq, Fin.ext_iff] at hij
      have key : ∀ a : Fin n, a.val ≠ 0 → ∃ e ∈ (List.range (n - 1)).map fun (i : ℕ) =>
          (((0, 0, 0), circ (2 * Real.pi * i / (n - 1 : ℕ))) : Pos × Pos),
          s(((0, 0, 0) : Pos), circ (2 * Real.pi * ((a.val - 1 : ℕ) : ℝ) / (n - 1 : ℕ))) = s(e.1, e.2) := by
        intro a ha
        exact ⟨_, List.mem_map.2 ⟨a.val - 1, by rw [List.mem_range]; omega, rfl⟩, rfl⟩
      rcases hij with ⟨hne, rfl | rfl⟩
      · have hj : j.val ≠ 0 := fun h => hne h.symm
        obtain ⟨e, he, hs⟩ := key j hj
        exact ⟨e, he, by simpa [hj] using hs⟩
      · have hi : i.val ≠ 0 := hne
        obtain ⟨e, he, hs⟩ := key i hi
        refine ⟨e, he, ?_⟩
        rw [Sym2.eq_swap]
        simpa [hi] using hs
    · intro i
      by_cases h0 : i.val = 0
      · refine ⟨⟨1, by omega⟩, ?_⟩
        rw [SimpleGraph.starGraph_adj, ne_eq, Fin.ext_iff, Fin.ext_iff]
        exact ⟨by simp [h0], Or.inl h0⟩
      · refine ⟨⟨0, hn⟩, ?_⟩
        rw [SimpleGraph.starGraph_adj, ne_eq, Fin.ext_iff]
        exact ⟨by simpa using h0, Or.inr rfl⟩

/-- `complete_graph(n)` is the complete graph, up to four hundred thousand vertices. -/
theorem C51_complete (n : ℕ) (hn : 1 ≤ n) (hmax : n ≤ 400000) :
    HasShape (completeGraph (.int n)) (⊤ : SimpleGraph (Fin n)) := by
  rcases Nat.lt_or_ge n 2 with h | h
  · obtain rfl : n = 1 := by omega
    exact shape_one _ (by unfold completeGraph; rw [generic_ok (by omega)]; simp) _
  · have e : completeGraph (.int n) = .ok (addEdges ⟨[], []⟩ ((List.range n).flatMap fun (i : ℕ) =>
        (List.range' 1 (n - i - 1)).map fun (j : ℕ) =>
          (circ5 (2 * Real.pi * i / n), circ5 (2 * Real.pi * (i + j : ℕ) / n)))) := by
      unfold completeGraph addEdges
      rw [generic_ok hn, if_neg (by omega), List.foldl_flatMap]
      congr 1
      congr 1
      funext g i
      rw [List.foldl_map]
      dsimp only
      congr 1
      funext g j
      have : 2 * Real.pi * j / n + 2 * Real.pi * i / n = 2 * Real.pi * (i + j : ℕ) / n := by push_cast; ring
      simp only [this]
      rfl
    rw [e]
    refine shape_of_edges _ _ (fun i => circ5 (2 * Real.pi * i.val / n)) ?_ ?_ ?_ ?_
    · intro i j hij
      exact Fin.ext (circ5_inj hmax i.isLt j.isLt hij)
    · intro e he
      obtain ⟨i, hi, he⟩ := List.mem_flatMap.1 he
      obtain ⟨j, hj, rfl⟩ := List.mem_map.1 he
      rw [List.mem_range] at hi
      rw [List.mem_range'_1] at hj
      refine ⟨⟨i, hi⟩, ⟨i + j, by omega⟩, ?_, rfl⟩
      rw [SimpleGraph.top_adj, ne_eq, Fin.ext_iff]
      simp; omega
    · intro i j hij
      rw [SimpleGraph.top_adj, ne_eq, Fin.ext_iff] at hij
      have key : ∀ a b : Fin n, a.val < b.val → ∃ e ∈ (List.range n).flatMap fun (i : ℕ) =>
        (List.range' 1 (n - i - 1)).map fun (j : ℕ) =>
          (circ5 (2 * Real.pi * i / n), circ5 (2 * Real.pi * (i + j : ℕ) / n)),
          s(circ5 (2 * Real.pi * a.val / n), circ5 (2 * Real.pi * b.val / n)) = s(e.1, e.2) := by
        intro a b hab
        refine ⟨_, List.mem_flatMap.2 ⟨a.val, List.mem_range.2 a.isLt, List.mem_map.2 ⟨b.val - a.val, ?_, rfl⟩⟩, ?_⟩
        · rw [List.mem_range'_1]
          have := b.isLt
          omega
        · rw [show a.val + (b.val - a.val) = b.val by omega]
      rcases lt_or_gt_of_ne hij with hij | hij
      · exact key i j hij
      · obtain ⟨e, he, hs⟩ := key j i hij
        exact ⟨e, he, by rw [Sym2.eq_swap]; exact hs⟩
    · intro i
      by_cases h0 : i.val = 0
      · exact ⟨⟨1, by omega⟩, by rw [SimpleGraph.top_adj, ne_eq, Fin.ext_iff]; simp [h0]⟩
      · exact ⟨⟨0, by omega⟩, by rw [SimpleGraph.top_adj, ne_eq, Fin.ext_iff]; simpa using h0⟩

theorem ring_edges {n : ℕ} (h : 2 ≤ n) :
    ringGraph (.int n) = .ok (addEdges ⟨[], []⟩ ((List.range n).map fun (i : ℕ) =>
        (circ5 (2 * Real.pi * i / n), circ5 (2 * Real.pi * ((i + 1 : ℕ) : ℝ) / n)))) := by
  unfold ringGraph
  rw [generic_ok (by omega), if_neg (by omega)]
  congr 1
  have key : ∀ k a : ℕ, ∀ g : GS, (List.range' (a + 1) k).foldl (fun (c : GS × ℝ × ℝ) (i : ℕ) =>
      let degs := 2 * Real.pi * i / n
      (addEdge c.1 (round5 c.2.1, round5 c.2.2, 0) (round5 (Real.cos degs), round5 (Real.sin degs), 0),
        Real.cos degs, Real.sin degs)) (g, Real.cos (2 * Real.pi * a / n), Real.sin (2 * Real.pi * a / n)) =
      (addEdges g ((List.range' a k).map fun (i : ℕ) =>
        (circ5 (2 * Real.pi * i / n), circ5 (2 * Real.pi * ((i + 1 : ℕ) : ℝ) / n))),
        Real.cos (2 * Real.pi * ((a + k : ℕ) : ℝ) / n), Real.sin (2 * Real.pi * ((a + k : ℕ) : ℝ) / n)) := by
    intro k
    induction k with
    | zero => intro a g; rfl
    | succ k ih =>
      intro a g
      rw [List.range'_succ, List.foldl_cons, List.range'_succ, List.map_cons]
      simp only
      rw [ih (a + 1)]
      rw [show a + 1 + k = a + (k + 1) by omega]
      rfl
  have := key n 0 ⟨[], []⟩
  simp only [Nat.cast_zero, mul_zero, zero_div, zero_add] at this
  rw [this, List.range_eq_range']

/-- `ring_graph(n)` is the cycle (a single edge for `n = 2`), up to four hundred thousand vertices. -/
theorem C51_ring (n : ℕ) (hn : 1 ≤ n) (hmax : n ≤ 400000) :
    HasShape (ringGraph (.int n)) (SimpleGraph.cycleGraph n) := by
  rcases Nat.lt_or_ge n 2 with h | h
  · obtain rfl : n = 1 := by omega
    exact shape_one _ (by unfold ringGraph; rw [generic_ok (by omega)]; simp) _
  · rw [ring_edges h]
    obtain ⟨m, rfl⟩ : ∃ m, n = m + 2 := ⟨n - 2, by omega⟩
    have hwrap : ∀ i < m + 2, circ5 (2 * Real.pi * ((i + 1 : ℕ) : ℝ) / ((m + 2 : ℕ) : ℝ)) =
        circ5 (2 * Real.pi * (((i + 1) % (m + 2) : ℕ) : ℝ) / ((m + 2 : ℕ) : ℝ)) := by
      intro i hi
      rcases Nat.lt_or_ge (i + 1) (m + 2) with h1 | h1
      · rw [Nat.mod_eq_of_lt h1]
      · obtain h2 : i + 1 = m + 2 := by omega
        rw [h2, Nat.mod_self]
        have hne : ((m + 2 : ℕ) : ℝ) ≠ 0 := by positivity
        have : 2 * Real.pi * ((m + 2 : ℕ) : ℝ) / ((m + 2 : ℕ) : ℝ) = 2 * Real.pi := by field_simp
        rw [this]
        unfold circ5
        simp
    have hsucc : ∀ i : Fin (m + 2), (i + 1).val = (i.val + 1) % (m + 2) := by
      intro i
      rw [Fin.val_add]; simp
    have hone : (1 : Fin (m + 2)) ≠ 0 := by simp [Fin.ext_iff]
    refine shape_of_edges _ _ (fun i => circ5 (2 * Real.pi * i.val / ((m + 2 : ℕ) : ℝ))) ?_ ?_ ?_ ?_
    · intro i j hij
      exact Fin.ext (circ5_inj hmax i.isLt j.isLt hij)
    · intro e he
      obtain ⟨i, hi, rfl⟩ := List.mem_map.1 he
      rw [List.mem_range] at hi
      refine ⟨⟨i, hi⟩, ⟨i, hi⟩ + 1, ?_, ?_⟩
      · rw [SimpleGraph.cycleGraph_adj]
        right; simp
      · rw [hwrap i hi, hsucc]
    · intro i j hij
      rw [SimpleGraph.cycleGraph_adj] at hij
      have key : ∀ a : Fin (m + 2), ∃ e ∈ (List.range (m + 2)).map fun (i : ℕ) =>
        (circ5 (2 * Real.pi * i / ((m + 2 : ℕ) : ℝ)), circ5 (2 * Real.pi * ((i + 1 : ℕ) : ℝ) / ((m + 2 : ℕ) : ℝ))),
          s(circ5 (2 * Real.pi * a.val / ((m + 2 : ℕ) : ℝ)), circ5 (2 * Real.pi * (a + 1).val / ((m + 2 : ℕ) : ℝ))) =
            s(e.1, e.2) := by
        intro a
        refine ⟨_, List.mem_map.2 ⟨a.val, List.mem_range.2 a.isLt, rfl⟩, ?_⟩
        rw [hwrap _ a.isLt, hsucc]
      rcases hij with hij | hij
      · obtain ⟨e, he, hs⟩ := key j
        obtain rfl : i = j + 1 := by rw [← hij]; simp
        exact ⟨e, he, by rw [Sym2.eq_swap]; exact hs⟩
      · obtain rfl : j = i + 1 := by rw [← hij]; simp
        exact key i
    · intro i
      exact ⟨i + 1, by rw [SimpleGraph.cycleGraph_adj]; right; simp⟩

theorem circ5_near {t : ℝ} (h0 : 0 ≤ t) (h1 : t < 1 / 200000) : circ5 t = (1, 0, 0) := by
  have hs0 := Real.sin_nonneg_of_nonneg_of_le_pi h0 (by linarith [Real.pi_gt_three])
  have hs1 := Real.sin_le h0
  have hc1 := Real.cos_le_one t
  have hc0 := Real.one_sub_sq_div_two_le_cos (x := t)
  have hsmall : t ^ 2 / 2 ≤ 1 / 10 ^ 9 := by nlinarith
  unfold circ5 round5
  have e1 : rint (Real.cos t * 10 ^ 5) = 10 ^ 5 := by
    have hb := abs_le.1 (rint_bound (Real.cos t * 10 ^ 5))
    have hlt : ((rint (Real.cos t * 10 ^ 5) : ℤ) : ℝ) < ((10 ^ 5 + 1 : ℤ) : ℝ) := by
      push_cast; norm_num at *; linarith [hb.1]
    have hgt : ((10 ^ 5 - 1 : ℤ) : ℝ) < ((rint (Real.cos t * 10 ^ 5) : ℤ) : ℝ) := by
      push_cast; norm_num at *; linarith [hb.2]
    have a := Int.cast_lt.1 hlt
    have b := Int.cast_lt.1 hgt
    omega
  have e2 : rint (Real.sin t * 10 ^ 5) = 0 := by
    have hb := abs_le.1 (rint_bound (Real.sin t * 10 ^ 5))
    have hlt : ((rint (Real.sin t * 10 ^ 5) : ℤ) : ℝ) < ((1 : ℤ) : ℝ) := by
      push_cast; norm_num at *; linarith [hb.1]
    have hgt : ((-1 : ℤ) : ℝ) < ((rint (Real.sin t * 10 ^ 5) : ℤ) : ℝ) := by
      push_cast; norm_num at *; linarith [hb.2]
    have a := Int.cast_lt.1 hlt
    have b := Int.cast_lt.1 hgt
    omega
  rw [e1, e2]
  norm_num

/-- The bound is needed: from 1.3 million vertices on, rounding to five digits identifies the first two, and the
"ring" has a loop. -/
theorem C51_ring_large (n : ℕ) (hn : 1300000 ≤ n) :
    ∃ g, ringGraph (.int n) = .ok g ∧ s(((1, 0, 0) : Pos), (1, 0, 0)) ∈ g.edges ∧
      ¬ HasShape (ringGraph (.int n)) (SimpleGraph.cycleGraph n) := by
  have hedge : ∃ e ∈ (List.range n).map fun (i : ℕ) =>
        (circ5 (2 * Real.pi * i / n), circ5 (2 * Real.pi * ((i + 1 : ℕ) : ℝ) / n)),
      s(((1, 0, 0) : Pos), (1, 0, 0)) = s(e.1, e.2) := by
    refine ⟨_, List.mem_map.2 ⟨0, List.mem_range.2 (by omega), rfl⟩, ?_⟩
    have hn' : (1300000 : ℝ) ≤ n := by exact_mod_cast hn
    have hn0 : (0 : ℝ) < n := by linarith
    rw [circ5_near (by simp) (by norm_num), circ5_near (by positivity) ?_]
    rw [div_lt_div_iff₀ hn0 (by norm_num)]
    push_cast
    nlinarith [Real.pi_lt_d2]
  refine ⟨_, ring_edges (by omega), (addEdges_edges _ _ _).2 (Or.inr hedge), ?_⟩
  rintro ⟨g, hg, pos, hinj, _, _, he⟩
  rw [ring_edges (by omega)] at hg
  obtain rfl := Res.ok.inj hg
  obtain ⟨i, j, hij, hs⟩ := (he _).1 ((addEdges_edges _ _ _).2 (Or.inr hedge))
  have h1 : pos i = pos j := by
    rcases Sym2.eq_iff.1 hs with ⟨a, b⟩ | ⟨a, b⟩ <;> rw [← a, ← b]
  rw [hinj h1] at hij
  exact (SimpleGraph.cycleGraph n).irrefl hij

-- the 5-ring has five nodes and edges between consecutive ones
example : ∃ g, ringGraph (.int 5) = .ok g ∧ g.nodes.length = 5 := by
  obtain ⟨g, h1, pos, _, h3, _⟩ := C51_ring 5 (by omega) (by omega)
  exact ⟨g, h1, by rw [h3.length_eq]; simp⟩

example : linearCluster (.int 0) = .valueError ∧ linearCluster .other = .valueError :=
  ⟨(C51_rejects _ (by rintro n ⟨⟩; omega)).1, (C51_rejects _ (by rintro n ⟨⟩)).1⟩

end

end Flamingpy.GraphStates
