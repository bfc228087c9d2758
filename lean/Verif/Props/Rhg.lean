import Verif.Proofs.RhgDegree
import Mathlib.Algebra.Order.Group.Int
import Mathlib.Algebra.Order.Group.Unbundled.Abs
import Mathlib.Algebra.Order.Group.Abs

/-!
# C22-C24: the RHG lattice

`verts` is the order in which the code happens to iterate over its set of primal vertices: any
arrangement of `denested dims bds`.
-/

namespace Flamingpy.SurfaceCode

open Flamingpy

/-! ### C22 -/

/-- The nodes are exactly the lattice points of the box with one or two even coordinates. -/
theorem C22_nodes {dims : Fin 3 → ℕ} {bds : Fin 3 → Bd} (hd : goodDims dims bds)
    (pol : Option (V → V → ℤ)) {verts : List V} (hv : verts.Perm (denested dims bds)) (x : V) :
    x ∈ PyDict.keys (rhgGraph dims bds pol verts).nodes ↔
      (∀ i, inAxis (bds i) (dims i) (x i)) ∧ (evens x = 1 ∨ evens x = 2) :=
  rhg_keys hd pol (fun _ => hv.mem_iff) x

/-- Every node is listed once; its type is primal iff it has exactly one even coordinate. -/
theorem C22_types {dims : Fin 3 → ℕ} {bds : Fin 3 → Bd} (hd : goodDims dims bds)
    (pol : Option (V → V → ℤ)) {verts : List V} (hv : verts.Perm (denested dims bds)) :
    (PyDict.keys (rhgGraph dims bds pol verts).nodes).Nodup ∧
      ∀ e ∈ (rhgGraph dims bds pol verts).nodes, e.2 = true ↔ evens e.1 = 1 := by
  have hB := rhgGraph_built dims bds pol verts
  refine ⟨hB.nodesNd, fun e he => ?_⟩
  have hg : PyDict.get? (rhgGraph dims bds pol verts).nodes e.1 = some e.2 :=
    (PyDict.get?_iff_mem hB.nodesNd _ _).2 he
  rw [rhg_type hd pol (fun _ => hv.mem_iff) e.1 e.2 hg]
  simp

/-- The edges join exactly the pairs of nodes that differ by one step along one axis. -/
theorem C22_edges {dims : Fin 3 → ℕ} {bds : Fin 3 → Bd} (hd : goodDims dims bds)
    (pol : Option (V → V → ℤ)) {verts : List V} (hv : verts.Perm (denested dims bds)) (x y : V) :
    s(x, y) ∈ PyDict.keys (rhgGraph dims bds pol verts).edges ↔
      isNode dims bds x ∧ isNode dims bds y ∧ adjacent dims bds x y :=
  rhg_edges hd pol (fun _ => hv.mem_iff) x y

/-- Every edge joins a primal and a dual node. -/
theorem C22_bipartite {dims : Fin 3 → ℕ} {bds : Fin 3 → Bd} (hd : goodDims dims bds)
    (pol : Option (V → V → ℤ)) {verts : List V} (hv : verts.Perm (denested dims bds)) (x y : V)
    (h : s(x, y) ∈ PyDict.keys (rhgGraph dims bds pol verts).edges) :
    (evens x = 1 ∧ evens y = 2) ∨ (evens x = 2 ∧ evens y = 1) := by
  obtain ⟨hx, hy, i, hi, hj⟩ := (C22_edges hd pol hv x y).1 h
  have h1 := hx.2
  have h2 := hy.2
  rw [evens_one_iff, evens_two_iff] at h1 h2
  simp only [evens_one_iff, evens_two_iff]
  rcases parity_of_nodes h1 h2 (nextTo_parity hi) hj with ⟨a, b, _⟩ | ⟨a, b, _⟩
  · exact Or.inl ⟨a, b⟩
  · exact Or.inr ⟨a, b⟩

/-- Each edge is stored once and no node has more than four. -/
theorem C22_degree {dims : Fin 3 → ℕ} {bds : Fin 3 → Bd} (hd : goodDims dims bds)
    (pol : Option (V → V → ℤ)) {verts : List V} (hv : verts.Perm (denested dims bds)) :
    (PyDict.keys (rhgGraph dims bds pol verts).edges).Nodup ∧
      ∀ x, isNode dims bds x → (edgesAt (rhgGraph dims bds pol verts) x).length ≤ 4 :=
  ⟨(rhgGraph_built dims bds pol verts).edgesNd,
    fun _ hx => degree_le_four hd pol (fun _ => hv.mem_iff) hx⟩

/-- Without a polarity every edge has weight 1; an edge is flagged `periodic` iff it wraps around
(its ends differ by more than one). -/
theorem C22_attributes {dims : Fin 3 → ℕ} {bds : Fin 3 → Bd} (hd : ∀ i, 2 ≤ dims i)
    (pol : Option (V → V → ℤ)) {verts : List V} (hv : verts.Perm (denested dims bds)) (x y : V) (w : ℤ)
    (p : Bool) (h : (s(x, y), (w, p)) ∈ (rhgGraph dims bds pol verts).edges) :
    (pol = none → w = 1) ∧ (p = true ↔ ∃ i, 1 < |x i - y i|) := by
  have hd' : goodDims dims bds := fun i => ⟨by have := hd i; omega, fun _ => hd i⟩
  have hB := rhgGraph_built dims bds pol verts
  have hg : PyDict.get? (rhgGraph dims bds pol verts).edges s(x, y) = some (w, p) :=
    (PyDict.get?_iff_mem hB.edgesNd _ _).2 h
  obtain ⟨⟨u, v, p', huv, hop⟩, h2⟩ := hB.edgeVal _ _ _ hg
  have hop' := (ops_edge hd' pol (fun _ => hv.mem_iff) u v w p').1 hop
  refine ⟨?_, h2.trans ?_⟩
  · rintro rfl
    rw [hop'.2.2.1]; rfl
  · constructor
    · rintro ⟨a, b, w', hab, hm⟩
      obtain ⟨-, -, -, h | ⟨-, -, -, i, h0, -, rfl⟩⟩ := (ops_edge hd' pol (fun _ => hv.mem_iff) a b w' true).1 hm
      · exact absurd h.1 (by simp)
      · have := hd i
        refine ⟨i, ?_⟩
        rw [Sym2.eq_iff] at hab
        rw [lt_abs]
        rcases hab with ⟨rfl, rfl⟩ | ⟨rfl, rfl⟩ <;> simp [h0] <;> omega
    · rintro ⟨i, hi⟩
      rcases hop'.2.2.2 with ⟨-, -, -, j, -, hj⟩ | ⟨rfl, h1, h3, j, hj⟩
      · exfalso
        have hdiff : |u i - v i| ≤ 1 := by
          rw [abs_le]
          by_cases hij : i = j
          · subst hij; rcases hj with rfl | rfl <;> simp
          · rcases hj with rfl | rfl <;> simp [hij]
        rw [Sym2.eq_iff] at huv
        rcases huv with ⟨rfl, rfl⟩ | ⟨rfl, rfl⟩
        · omega
        · rw [abs_sub_comm] at hi; omega
      · exact ⟨u, v, w, huv, hop⟩

/-- With a polarity function, the weight of an edge is its value at the ends of the edge: primal end first,
except for an edge that wraps around, where the dual end comes first. -/
theorem C22_polarity {dims : Fin 3 → ℕ} {bds : Fin 3 → Bd} (hd : ∀ i, 2 ≤ dims i)
    (f : V → V → ℤ) {verts : List V} (hv : verts.Perm (denested dims bds)) (x y : V)
    (hx : evens x = 1) (w : ℤ) (p : Bool) (h : (s(x, y), (w, p)) ∈ (rhgGraph dims bds (some f) verts).edges) :
    w = if ∃ i, 1 < |x i - y i| then f y x else f x y := by
  have hd' : goodDims dims bds := fun i => ⟨by have := hd i; omega, fun _ => hd i⟩
  have hB := rhgGraph_built dims bds (some f) verts
  have hg : PyDict.get? (rhgGraph dims bds (some f) verts).edges s(x, y) = some (w, p) :=
    (PyDict.get?_iff_mem hB.edgesNd _ _).2 h
  obtain ⟨⟨u, v, p', huv, hop⟩, -⟩ := hB.edgeVal _ _ _ hg
  obtain ⟨-, -, rfl, hcase⟩ := (ops_edge hd' (some f) (fun _ => hv.mem_iff) u v w p').1 hop
  rw [evens_one_iff] at hx
  rcases hcase with ⟨-, hu, hv', j, -, hj⟩ | ⟨-, hu, hv', i, h0, -, rfl⟩
  · have : x = u ∧ y = v := by
      rw [Sym2.eq_iff] at huv
      rcases huv with ⟨rfl, rfl⟩ | ⟨rfl, rfl⟩
      · exact ⟨rfl, rfl⟩
      · exact (not_primal_dual hx hv').elim
    obtain ⟨rfl, rfl⟩ := this
    rw [if_neg]
    · rfl
    · rintro ⟨i, hi⟩
      have hdiff : |x i - y i| ≤ 1 := by
        rw [abs_le]
        by_cases hij : i = j
        · subst hij; rcases hj with rfl | rfl <;> simp
        · rcases hj with rfl | rfl <;> simp [hij]
      omega
  · have : y = u ∧ x = Function.update u i (2 * (dims i : ℤ) - 1) := by
      rw [Sym2.eq_iff] at huv
      rcases huv with ⟨rfl, _⟩ | ⟨rfl, rfl⟩
      · exact (not_primal_dual hx hu).elim
      · exact ⟨rfl, rfl⟩
    obtain ⟨rfl, rfl⟩ := this
    rw [if_pos]
    · rfl
    · have := hd i
      refine ⟨i, ?_⟩
      rw [lt_abs]
      left
      simp [h0]
      omega

/-! ### C23 -/

/-- With periodic boundaries every node has exactly four edges. -/
theorem C23_four_regular {dims : Fin 3 → ℕ} (hd : ∀ i, 2 ≤ dims i) (pol : Option (V → V → ℤ))
    {verts : List V} (hv : verts.Perm (denested dims fun _ => .periodic)) (x : V)
    (hx : x ∈ PyDict.keys (rhgGraph dims (fun _ => .periodic) pol verts).nodes) :
    (edgesAt (rhgGraph dims (fun _ => .periodic) pol verts) x).length = 4 ∧
      ∀ e ∈ edgesAt (rhgGraph dims (fun _ => .periodic) pol verts) x, ∃ y, e.1 = s(x, y) ∧
        y ∈ PyDict.keys (rhgGraph dims (fun _ => .periodic) pol verts).nodes ∧
        (evens x = 1 ↔ evens y = 2) := by
  have hd' : goodDims dims (fun _ => .periodic) := fun i => ⟨by have := hd i; omega, fun _ => hd i⟩
  have hmem : ∀ x, x ∈ verts ↔ x ∈ denested dims fun _ => .periodic := fun _ => hv.mem_iff
  have hx' := (rhg_keys hd' pol hmem x).1 hx
  refine ⟨degree_periodic hd' pol hmem (fun _ => rfl) hd hx', ?_⟩
  intro e he
  unfold edgesAt at he
  rw [List.mem_filter, decide_eq_true_eq] at he
  obtain ⟨he, y, hy⟩ := he
  have hk : s(x, y) ∈ PyDict.keys (rhgGraph dims (fun _ => .periodic) pol verts).edges := by
    rw [← hy]; exact List.mem_map_of_mem (f := (·.1)) he
  refine ⟨y, hy, ?_, ?_⟩
  · rw [rhg_keys hd' pol hmem]; exact ((C22_edges hd' pol hv x y).1 hk).2.1
  · rcases C22_bipartite hd' pol hv x y hk with ⟨a, b⟩ | ⟨a, b⟩ <;> omega

/-! ### C24 -/

/-- With `alternating_polarity` every four-valent vertex has two +1 and two -1 edges. -/
theorem C24_alternating_polarity {dims : Fin 3 → ℕ} {bds : Fin 3 → Bd} (hd : goodDims dims bds)
    {verts : List V} (hv : verts.Perm (denested dims bds)) (x : V)
    (hx : x ∈ PyDict.keys (rhgGraph dims bds (some alternatingPolarity) verts).nodes)
    (h4 : (edgesAt (rhgGraph dims bds (some alternatingPolarity) verts) x).length = 4) :
    ((edgesAt (rhgGraph dims bds (some alternatingPolarity) verts) x).filter
      fun e => decide (e.2.1 = 1)).length = 2 ∧
    ((edgesAt (rhgGraph dims bds (some alternatingPolarity) verts) x).filter
      fun e => decide (e.2.1 = -1)).length = 2 :=
  polarity_balanced hd (fun _ => hv.mem_iff) ((rhg_keys hd _ (fun _ => hv.mem_iff) x).1 hx) h4

/-! ### Concrete cases -/

-- the hypotheses hold for the distance-3 planar code
example : goodDims (fun _ => 3) ![Bd.primal, .dual, .dual] := by
  intro i; simp

example : (denested (fun _ => 2) ![Bd.primal, .dual, .dual]).length = 20 := by decide +kernel

-- a four-valent vertex in the 2x2x2 periodic lattice
example : isNode (fun _ => 2) (fun _ => Bd.periodic) ![0, 1, 1] := by
  refine ⟨fun i => ?_, by decide⟩
  fin_cases i <;> simp [inAxis]

example : (edgesAt (rhgGraph (fun _ => 2) (fun _ => Bd.periodic) (some alternatingPolarity)
    (denested (fun _ => 2) fun _ => Bd.periodic)) ![0, 1, 1]).map (·.2.1) = [1, -1, 1, -1] := by
  decide +kernel

end Flamingpy.SurfaceCode
