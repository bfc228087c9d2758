import Verif.Model.GraphStates
import Mathlib.Analysis.SpecialFunctions.Trigonometric.Bounds
import Mathlib.Analysis.Real.Pi.Bounds
import Mathlib.Tactic.NormNum
import Mathlib.Tactic.Ring
import Mathlib.Tactic.Linarith

/-! # Graph states: construction by edges, positions on the circle -/

namespace Flamingpy.GraphStates

noncomputable section

/-- Add edges in turn. -/
def addEdges (g : GS) (l : List (Pos × Pos)) : GS := l.foldl (fun g e => addEdge g e.1 e.2) g

structure Ok (g : GS) : Prop where
  nodes : g.nodes.Nodup
  edges : g.edges.Nodup

theorem addNode_mem {g : GS} {p x : Pos} : x ∈ (addNode g p).nodes ↔ x ∈ g.nodes ∨ x = p := by
  unfold addNode
  split_ifs with h
  · constructor
    · exact Or.inl
    · rintro (h1 | rfl)
      · exact h1
      · exact h
  · simp

theorem addNode_edges {g : GS} {p : Pos} : (addNode g p).edges = g.edges := by
  unfold addNode
  split_ifs <;> rfl

theorem addNode_ok {g : GS} (h : Ok g) (p : Pos) : Ok (addNode g p) := by
  unfold addNode
  split_ifs with hp
  · exact h
  · exact ⟨List.nodup_append.2 ⟨h.nodes, by simp, by rintro a ha b hb rfl; simp at hb; exact hp (hb ▸ ha)⟩, h.edges⟩

theorem addEdge_nodes {g : GS} {p q x : Pos} : x ∈ (addEdge g p q).nodes ↔ x ∈ g.nodes ∨ x = p ∨ x = q := by
  unfold addEdge
  simp only
  split_ifs <;> simp only [addNode_mem, or_assoc]

theorem addEdge_edges {g : GS} {p q : Pos} {e : Sym2 Pos} :
    e ∈ (addEdge g p q).edges ↔ e ∈ g.edges ∨ e = s(p, q) := by
  unfold addEdge
  simp only [addNode_edges]
  split_ifs with h
  · simp only [addNode_edges]
    constructor
    · exact Or.inl
    · rintro (h1 | rfl)
      · exact h1
      · exact h
  · simp

theorem addEdge_ok {g : GS} (h : Ok g) (p q : Pos) : Ok (addEdge g p q) := by
  have h2 := addNode_ok (addNode_ok h p) q
  unfold addEdge
  simp only
  split_ifs with he
  · exact h2
  · exact ⟨h2.nodes, List.nodup_append.2 ⟨h2.edges, by simp, by rintro a ha b hb rfl; simp at hb; exact he (hb ▸ ha)⟩⟩

theorem addEdges_ok {g : GS} (h : Ok g) (l : List (Pos × Pos)) : Ok (addEdges g l) := by
  unfold addEdges
  induction l generalizing g with
  | nil => exact h
  | cons e l ih => exact ih (addEdge_ok h _ _)

theorem addEdges_nodes (g : GS) (l : List (Pos × Pos)) (x : Pos) :
    x ∈ (addEdges g l).nodes ↔ x ∈ g.nodes ∨ ∃ e ∈ l, x = e.1 ∨ x = e.2 := by
  unfold addEdges
  induction l generalizing g with
  | nil => simp
  | cons e l ih => rw [List.foldl_cons, ih, addEdge_nodes]; simp [or_assoc]

theorem addEdges_edges (g : GS) (l : List (Pos × Pos)) (x : Sym2 Pos) :
    x ∈ (addEdges g l).edges ↔ x ∈ g.edges ∨ ∃ e ∈ l, x = s(e.1, e.2) := by
  unfold addEdges
  induction l generalizing g with
  | nil => simp
  | cons e l ih => rw [List.foldl_cons, ih, addEdge_edges]; simp [or_assoc]

theorem addEdges_append (g : GS) (l m : List (Pos × Pos)) : addEdges g (l ++ m) = addEdges (addEdges g l) m := by
  unfold addEdges; rw [List.foldl_append]

/-! ### Points on the circle -/

/-- Position at an angle, before rounding. -/
def circ (t : ℝ) : Pos := (Real.cos t, Real.sin t, 0)

/-- Position at an angle, rounded. -/
def circ5 (t : ℝ) : Pos := (round5 (Real.cos t), round5 (Real.sin t), 0)

theorem rint_bound (x : ℝ) : |x - rint x| ≤ 1 / 2 := by
  have h1 := Int.floor_add_fract x
  have h2 := Int.fract_lt_one x
  have h3 := Int.fract_nonneg x
  unfold rint
  rw [abs_le]
  split_ifs with a b c
  · constructor <;> linarith
  · push_cast; constructor <;> linarith
  · constructor <;> linarith
  · push_cast; constructor <;> linarith

/-- Equal rounded values are at most one unit apart. -/
theorem round5_close {x y : ℝ} (h : round5 x = round5 y) : |x - y| ≤ 1 / 10 ^ 5 := by
  unfold round5 at h
  have h' : rint (x * 10 ^ 5) = rint (y * 10 ^ 5) := by
    have : ((rint (x * 10 ^ 5) : ℤ) : ℝ) = rint (y * 10 ^ 5) := by
      exact (div_left_inj' (by norm_num)).1 h
    exact_mod_cast this
  have h1 := abs_le.1 (rint_bound (x * 10 ^ 5))
  have h2 := abs_le.1 (rint_bound (y * 10 ^ 5))
  rw [h'] at h1
  rw [abs_le]
  constructor
  · linarith [h1.1, h1.2, h2.1, h2.2]
  · linarith [h1.1, h1.2, h2.1, h2.2]

/-- Squared distance of two points of the unit circle. -/
theorem chord (a b : ℝ) :
    (Real.cos a - Real.cos b) ^ 2 + (Real.sin a - Real.sin b) ^ 2 = 4 * Real.sin ((a - b) / 2) ^ 2 := by
  have h1 := Real.sin_sq_add_cos_sq a
  have h2 := Real.sin_sq_add_cos_sq b
  have h3 := Real.cos_sub a b
  have h4 : Real.cos (a - b) = 1 - 2 * Real.sin ((a - b) / 2) ^ 2 := by
    have := Real.cos_two_mul ((a - b) / 2)
    rw [show 2 * ((a - b) / 2) = a - b by ring] at this
    have h5 := Real.sin_sq_add_cos_sq ((a - b) / 2)
    rw [this]; linarith
  nlinarith [h1, h2, h3, h4]

/-- On the upper half circle away from the ends the sine is at least its value near the ends. -/
theorem sin_ge {x d : ℝ} (h0 : 0 ≤ d) (hd : d ≤ Real.pi / 2) (h1 : d ≤ x) (h2 : x ≤ Real.pi - d) :
    Real.sin d ≤ Real.sin x := by
  rcases le_total x (Real.pi / 2) with h | h
  · exact Real.sin_le_sin_of_le_of_le_pi_div_two (by linarith [Real.pi_pos]) h h1
  · rw [← Real.sin_pi_sub x]
    exact Real.sin_le_sin_of_le_of_le_pi_div_two (by linarith [Real.pi_pos]) (by linarith) (by linarith)

/-- Different multiples of a full turn's `m`-th part. -/
theorem sin_angle {m i j : ℕ} (hi : i < m) (hj : j < m) (hij : i ≠ j) :
    Real.sin (Real.pi / m) ^ 2 ≤
      Real.sin ((2 * Real.pi * i / m - 2 * Real.pi * j / m) / 2) ^ 2 ∧ 0 < Real.sin (Real.pi / m) := by
  have hm : 2 ≤ m := by omega
  have hm0 : (0 : ℝ) < m := by exact_mod_cast (by omega : 0 < m)
  have hm2 : (2 : ℝ) ≤ m := by exact_mod_cast hm
  have hd : Real.pi / m ≤ Real.pi / 2 := by
    apply div_le_div_of_nonneg_left Real.pi_pos.le (by norm_num) hm2
  have hd0 : 0 < Real.pi / m := div_pos Real.pi_pos hm0
  have hpos : 0 < Real.sin (Real.pi / m) := Real.sin_pos_of_pos_of_lt_pi hd0 (by linarith [Real.pi_pos])
  refine ⟨?_, hpos⟩
  have key : ∀ a b : ℕ, a < m → b < a →
      Real.sin (Real.pi / m) ≤ Real.sin ((2 * Real.pi * a / m - 2 * Real.pi * b / m) / 2) := by
    intro a b ha hb
    have e : (2 * Real.pi * a / m - 2 * Real.pi * b / m) / 2 = Real.pi / m * ((a : ℝ) - b) := by ring
    have hab : (1 : ℝ) ≤ (a : ℝ) - b := by
      have : (b : ℝ) + 1 ≤ a := by exact_mod_cast hb
      linarith
    have ham : (a : ℝ) - b ≤ m - 1 := by
      have : (a : ℝ) + 1 ≤ m := by exact_mod_cast ha
      have : (0 : ℝ) ≤ b := Nat.cast_nonneg b
      linarith
    have hmm : Real.pi / m * m = Real.pi := by field_simp
    apply sin_ge hd0.le hd
    · rw [e]; nlinarith
    · rw [e]; nlinarith
  rcases lt_or_gt_of_ne hij with h | h
  · have := key j i hj h
    rw [show (2 * Real.pi * i / m - 2 * Real.pi * j / m) / 2 =
      -((2 * Real.pi * j / m - 2 * Real.pi * i / m) / 2) by ring, Real.sin_neg, neg_sq]
    exact pow_le_pow_left₀ hpos.le this 2
  · exact pow_le_pow_left₀ hpos.le (key i j hi h) 2

theorem circ_inj {m i j : ℕ} (hi : i < m) (hj : j < m)
    (h : circ (2 * Real.pi * i / m) = circ (2 * Real.pi * j / m)) : i = j := by
  by_contra hij
  obtain ⟨h1, h2⟩ := sin_angle hi hj hij
  unfold circ at h
  simp only [Prod.mk.injEq, and_true] at h
  have hc := chord (2 * Real.pi * i / m) (2 * Real.pi * j / m)
  rw [h.1, h.2, sub_self, sub_self] at hc
  nlinarith [pow_pos h2 2]

/-- Up to four hundred thousand points the rounded positions are different. -/
theorem circ5_inj {m i j : ℕ} (hm : m ≤ 400000) (hi : i < m) (hj : j < m)
    (h : circ5 (2 * Real.pi * i / m) = circ5 (2 * Real.pi * j / m)) : i = j := by
  by_contra hij
  obtain ⟨h1, h2⟩ := sin_angle hi hj hij
  unfold circ5 at h
  simp only [Prod.mk.injEq, and_true] at h
  have hc := chord (2 * Real.pi * i / m) (2 * Real.pi * j / m)
  have a1 := round5_close h.1
  have a2 := round5_close h.2
  have b1 := sq_le_sq' (abs_le.1 a1).1 (abs_le.1 a1).2
  have b2 := sq_le_sq' (abs_le.1 a2).1 (abs_le.1 a2).2
  have hm0 : (0 : ℝ) < m := by exact_mod_cast (by omega : 0 < m)
  have hm2 : (2 : ℝ) ≤ m := by exact_mod_cast (by omega : 2 ≤ m)
  have hlow : (71 : ℝ) / 10 ^ 7 < Real.sin (Real.pi / m) := by
    rcases le_or_gt m 280000 with hs | hl
    · have hd0 : 0 ≤ Real.pi / m := (div_pos Real.pi_pos hm0).le
      have hd : Real.pi / m ≤ Real.pi / 2 := div_le_div_of_nonneg_left Real.pi_pos.le (by norm_num) hm2
      have := Real.mul_le_sin hd0 hd
      have e : 2 / Real.pi * (Real.pi / m) = 2 / m := by
        have := Real.pi_pos.ne'
        field_simp
      rw [e] at this
      have hm' : (m : ℝ) ≤ 280000 := by exact_mod_cast hs
      have : (2 : ℝ) / 280000 ≤ 2 / m := div_le_div_of_nonneg_left (by norm_num) hm0 hm'
      norm_num at this ⊢
      linarith
    · have hm' : (m : ℝ) ≤ 400000 := by exact_mod_cast hm
      have hl' : (280000 : ℝ) ≤ m := by exact_mod_cast hl.le
      have hx1 : (31 : ℝ) / 4000000 ≤ Real.pi / m := by
        rw [div_le_div_iff₀ (by norm_num) hm0]
        nlinarith [Real.pi_gt_d2]
      have hx2 : Real.pi / m ≤ 1 / 1000 := by
        rw [div_le_div_iff₀ hm0 (by norm_num)]
        nlinarith [Real.pi_lt_d2]
      have := Real.sin_gt_sub_cube (x := Real.pi / m) (by linarith)
      nlinarith [pow_pos (show (0 : ℝ) < Real.pi / m by linarith) 2, sq_nonneg (Real.pi / m)]
  have : ((71 : ℝ) / 10 ^ 7) ^ 2 < Real.sin (Real.pi / m) ^ 2 := pow_lt_pow_left₀ hlow (by norm_num) (by norm_num)
  norm_num at b1 b2 this
  nlinarith

end

end Flamingpy.GraphStates
