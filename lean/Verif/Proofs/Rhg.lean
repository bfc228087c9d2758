import Verif.Spec.Rhg
import Verif.Proofs.PyDict
import Mathlib.Data.Fintype.Card
import Mathlib.Tactic.FinCases

/-! # `RHG_graph`: closed form of the construction -/

namespace Flamingpy.SurfaceCode

open Flamingpy

/-! ### Lists of operations -/

inductive Op where
  | node (v : V) (b : Bool)
  | edge (u v : V) (w : ℤ) (p : Bool)

def applyOp (G : RGraph) : Op → RGraph
  | .node v b => addNode G v b
  | .edge u v w p => addEdge G u v w p

def neighborOps (dims : Fin 3 → ℕ) (bds : Fin 3 → Bd) (pol : Option (V → V → ℤ)) (v n : V) : List Op :=
  if beyond dims bds n then []
  else [.node v true, .node n false, .edge v n (weightOf pol v n) false] ++
    (zeroPeriodic bds n).flatMap fun ind =>
      let other : V := Function.update n ind (2 * (dims ind : ℤ) - 1)
      [.node other true, .edge n other (weightOf pol n other) true]

def vertexOps (dims : Fin 3 → ℕ) (bds : Fin 3 → Bd) (pol : Option (V → V → ℤ)) (v : V) : List Op :=
  if beyond dims bds v then [] else (dualNeighbours v).flatMap (neighborOps dims bds pol v)

theorem foldl_flatMap' {α β γ : Type} (f : γ → β → γ) (g : α → List β) (l : List α) (c : γ) :
    (l.flatMap g).foldl f c = l.foldl (fun c a => (g a).foldl f c) c := by
  induction l generalizing c with
  | nil => rfl
  | cons a l ih => simp [List.flatMap_cons, List.foldl_append, ih]

theorem neighborStep_eq (dims bds pol v G n) :
    neighborStep dims bds pol v G n = (neighborOps dims bds pol v n).foldl applyOp G := by
  unfold neighborStep neighborOps
  split_ifs
  · rfl
  · rw [List.foldl_append, foldl_flatMap']
    rfl

theorem vertexStep_eq (dims bds pol G v) :
    vertexStep dims bds pol G v = (vertexOps dims bds pol v).foldl applyOp G := by
  unfold vertexStep vertexOps
  split_ifs
  · rfl
  · rw [foldl_flatMap']
    congr 1
    funext c a
    exact neighborStep_eq ..

theorem rhgGraph_eq (dims bds pol verts) :
    rhgGraph dims bds pol verts = (verts.flatMap (vertexOps dims bds pol)).foldl applyOp ⟨[], []⟩ := by
  unfold rhgGraph
  rw [foldl_flatMap']
  congr 1
  funext c a
  exact vertexStep_eq ..

/-- What a list of operations leaves behind. -/
structure Built (ops : List Op) (G : RGraph) : Prop where
  nodesNd : (PyDict.keys G.nodes).Nodup
  edgesNd : (PyDict.keys G.edges).Nodup
  nodeKey : ∀ v, v ∈ PyDict.keys G.nodes ↔ ∃ b, Op.node v b ∈ ops
  edgeKey : ∀ k, k ∈ PyDict.keys G.edges ↔ ∃ u v w p, s(u, v) = k ∧ Op.edge u v w p ∈ ops
  nodeVal : ∀ v b, PyDict.get? G.nodes v = some b → Op.node v b ∈ ops
  edgeVal : ∀ k w p, PyDict.get? G.edges k = some (w, p) →
    (∃ u v p', s(u, v) = k ∧ Op.edge u v w p' ∈ ops) ∧
      (p = true ↔ ∃ u v w', s(u, v) = k ∧ Op.edge u v w' true ∈ ops)

theorem Built.snoc {ops G} (h : Built ops G) (op : Op) : Built (ops ++ [op]) (applyOp G op) := by
  cases op with
  | node v b =>
    constructor
    · exact PyDict.keys_set_nodup _ _ h.nodesNd
    · exact h.edgesNd
    · intro x
      simp only [applyOp, addNode, PyDict.mem_keys_set, h.nodeKey, List.mem_append, List.mem_singleton,
        Op.node.injEq]
      constructor
      · rintro (rfl | ⟨b', hb⟩)
        · exact ⟨b, Or.inr ⟨rfl, rfl⟩⟩
        · exact ⟨b', Or.inl hb⟩
      · rintro ⟨b', hb | ⟨rfl, rfl⟩⟩
        · exact Or.inr ⟨b', hb⟩
        · exact Or.inl rfl
    · intro k
      have := h.edgeKey k
      simp only [applyOp, addNode, this, List.mem_append, List.mem_singleton, reduceCtorEq, or_false]
    · intro x b' hx
      simp only [applyOp, addNode, PyDict.get?_set] at hx
      split_ifs at hx with hv
      · simp only [Option.some.injEq] at hx
        subst hv hx; simp
      · simp [h.nodeVal _ _ hx]
    · intro k w p hk
      have := h.edgeVal k w p hk
      simpa only [List.mem_append, List.mem_singleton, reduceCtorEq, or_false] using this
  | edge u v w p =>
    constructor
    · exact h.nodesNd
    · exact PyDict.keys_set_nodup _ _ h.edgesNd
    · intro x
      have := h.nodeKey x
      simp only [applyOp, addEdge, this, List.mem_append, List.mem_singleton, reduceCtorEq, or_false]
    · intro k
      simp only [applyOp, addEdge, PyDict.mem_keys_set, h.edgeKey, List.mem_append, List.mem_singleton,
        Op.edge.injEq]
      constructor
      · rintro (rfl | ⟨a, b, c, d, hk, hm⟩)
        · exact ⟨u, v, w, p, rfl, Or.inr ⟨rfl, rfl, rfl, rfl⟩⟩
        · exact ⟨a, b, c, d, hk, Or.inl hm⟩
      · rintro ⟨a, b, c, d, hk, hm | ⟨rfl, rfl, rfl, rfl⟩⟩
        · exact Or.inr ⟨a, b, c, d, hk, hm⟩
        · exact Or.inl hk.symm
    · intro x b hx
      have := h.nodeVal x b hx
      simp [this]
    · intro k w' p' hk
      simp only [applyOp, addEdge, PyDict.get?_set] at hk
      split_ifs at hk with he
      · subst he
        simp only [Option.some.injEq, Prod.mk.injEq] at hk
        obtain ⟨rfl, rfl⟩ := hk
        refine ⟨⟨u, v, p, rfl, by simp⟩, ?_⟩
        simp only [Bool.or_eq_true]
        constructor
        · rintro (rfl | ho)
          · exact ⟨u, v, w, rfl, by simp⟩
          · cases hg : PyDict.get? G.edges s(u, v) with
            | none => simp [hg] at ho
            | some e =>
              simp only [hg, Option.map_some, Option.getD_some] at ho
              obtain ⟨a, b, c, hab, hm⟩ := (h.edgeVal _ e.1 e.2 hg).2.1 ho
              exact ⟨a, b, c, hab, by simp [hm]⟩
        · rintro ⟨a, b, c, hab, hm⟩
          simp only [List.mem_append, List.mem_singleton, Op.edge.injEq] at hm
          rcases hm with hm | ⟨_, _, _, rfl⟩
          · right
            have hin : s(u, v) ∈ PyDict.keys G.edges := (h.edgeKey _).2 ⟨a, b, c, true, hab, hm⟩
            rw [← PyDict.get?_isSome_iff, Option.isSome_iff_exists] at hin
            obtain ⟨e, he⟩ := hin
            simp only [he, Option.map_some, Option.getD_some]
            exact (h.edgeVal _ e.1 e.2 he).2.2 ⟨a, b, c, hab, hm⟩
          · exact Or.inl rfl
      · obtain ⟨⟨a, b, c, hab, hm⟩, h2⟩ := h.edgeVal k w' p' hk
        refine ⟨⟨a, b, c, hab, by simp [hm]⟩, h2.trans ?_⟩
        constructor
        · rintro ⟨a, b, c, hab, hm⟩
          exact ⟨a, b, c, hab, by simp [hm]⟩
        · rintro ⟨a, b, c, hab, hm⟩
          simp only [List.mem_append, List.mem_singleton, Op.edge.injEq] at hm
          rcases hm with hm | ⟨rfl, rfl, rfl, rfl⟩
          · exact ⟨a, b, c, hab, hm⟩
          · exact absurd hab he

theorem built_nil : Built [] ⟨[], []⟩ := by
  constructor <;> simp [PyDict.keys, PyDict.get?]

theorem built_foldl (ops : List Op) : Built ops (ops.foldl applyOp ⟨[], []⟩) := by
  induction ops using List.reverseRecOn with
  | nil => exact built_nil
  | append_singleton ops op ih =>
    rw [List.foldl_append]
    exact ih.snoc op

theorem rhgGraph_built (dims bds pol verts) :
    Built (verts.flatMap (vertexOps dims bds pol)) (rhgGraph dims bds pol verts) := by
  rw [rhgGraph_eq]; exact built_foldl _

/-! ### Parity patterns -/

def PrimalPt (x : V) : Prop := ∃ i, x i % 2 = 0 ∧ ∀ j, j ≠ i → x j % 2 = 1
def DualPt (x : V) : Prop := ∃ i, x i % 2 = 1 ∧ ∀ j, j ≠ i → x j % 2 = 0

theorem evens_one_iff (x : V) : evens x = 1 ↔ PrimalPt x := by
  unfold evens PrimalPt
  rw [Finset.card_eq_one]
  apply exists_congr
  intro i
  rw [Finset.ext_iff]
  simp only [Finset.mem_filter, Finset.mem_univ, true_and, Finset.mem_singleton, Int.even_iff]
  constructor
  · intro h
    exact ⟨(h i).2 rfl, fun j hj => by have := mt (h j).1 hj; omega⟩
  · rintro ⟨h1, h2⟩ j
    constructor
    · intro hj; by_contra hc; have := h2 j hc; omega
    · rintro rfl; exact h1

theorem evens_two_iff (x : V) : evens x = 2 ↔ DualPt x := by
  have hc : evens x + (Finset.univ.filter fun i => ¬ Even (x i)).card = 3 := by
    unfold evens
    rw [Finset.card_filter_add_card_filter_not]; rfl
  have : evens x = 2 ↔ (Finset.univ.filter fun i => ¬ Even (x i)).card = 1 := by omega
  rw [this, Finset.card_eq_one]
  unfold DualPt
  apply exists_congr
  intro i
  rw [Finset.ext_iff]
  simp only [Finset.mem_filter, Finset.mem_univ, true_and, Finset.mem_singleton, Int.even_iff]
  constructor
  · intro h
    exact ⟨by have := (h i).2 rfl; omega, fun j hj => by have := mt (h j).1 hj; omega⟩
  · rintro ⟨h1, h2⟩ j
    constructor
    · intro hj; by_contra hc; have := h2 j hc; omega
    · rintro rfl; omega

theorem not_primal_dual {x : V} (h : PrimalPt x) (h' : DualPt x) : False := by
  rw [← evens_one_iff] at h; rw [← evens_two_iff] at h'; omega

theorem upd0 (x : V) (a : ℤ) : Function.update x 0 a = ![a, x 1, x 2] := by
  funext i; fin_cases i <;> rfl
theorem upd1 (x : V) (a : ℤ) : Function.update x 1 a = ![x 0, a, x 2] := by
  funext i; fin_cases i <;> rfl
theorem upd2 (x : V) (a : ℤ) : Function.update x 2 a = ![x 0, x 1, a] := by
  funext i; fin_cases i <;> rfl

theorem mem_dualNeighbours {p : V} (hp : PrimalPt p) (n : V) :
    n ∈ dualNeighbours p ↔
      ∃ j, p j % 2 = 1 ∧ (n = Function.update p j (p j + 1) ∨ n = Function.update p j (p j - 1)) := by
  obtain ⟨i, h1, h2⟩ := hp
  have e : ∀ P : Fin 3 → Prop, (∃ j, P j) ↔ P 0 ∨ P 1 ∨ P 2 := fun P => by
    rw [Fin.exists_fin_succ, Fin.exists_fin_two]; rfl
  rw [e]
  simp only [upd0, upd1, upd2]
  fin_cases i
  · have a0 : p 0 % 2 = 0 := h1
    have a1 := h2 1 (by decide)
    have a2 := h2 2 (by decide)
    simp only [dualNeighbours, a0, a1, a2]
    simp
    tauto
  · have a0 : p 1 % 2 = 0 := h1
    have a1 := h2 0 (by decide)
    have a2 := h2 2 (by decide)
    simp only [dualNeighbours, a0, a1, a2]
    simp
    tauto
  · have a0 : p 2 % 2 = 0 := h1
    have a1 := h2 0 (by decide)
    have a2 := h2 1 (by decide)
    simp only [dualNeighbours, a0, a1, a2]
    simp
    tauto

/-! ### Cubes -/

/-- The six points around a centre, in the code's order. -/
def around (c : V) : List V :=
  [Function.update c 0 (c 0 - 1), Function.update c 1 (c 1 - 1), Function.update c 2 (c 2 - 1),
   Function.update c 0 (c 0 + 1), Function.update c 1 (c 1 + 1), Function.update c 2 (c 2 + 1)]

theorem sixBody_eq (t : ℤ × ℤ × ℤ) :
    sixBody t = around ![2 * t.1 + 1, 2 * t.2.1 + 1, 2 * t.2.2 + 1] := by
  obtain ⟨i, j, k⟩ := t
  simp only [sixBody, around, upd0, upd1, upd2]
  simp
  refine ⟨?_, ?_, ?_⟩ <;> omega

theorem dualSixBody_eq (t : ℤ × ℤ × ℤ) :
    dualSixBody t = around ![2 * t.1 + 2, 2 * t.2.1 + 2, 2 * t.2.2 + 2] := by
  obtain ⟨i, j, k⟩ := t
  simp only [dualSixBody, around, upd0, upd1, upd2]
  simp
  refine ⟨?_, ?_, ?_, ?_, ?_, ?_⟩ <;> omega

theorem mem_around (c x : V) :
    x ∈ around c ↔ ∃ i, x = Function.update c i (c i - 1) ∨ x = Function.update c i (c i + 1) := by
  have e : ∀ P : Fin 3 → Prop, (∃ j, P j) ↔ P 0 ∨ P 1 ∨ P 2 := fun P => by
    rw [Fin.exists_fin_succ, Fin.exists_fin_two]; rfl
  rw [e]
  simp only [around, List.mem_cons, List.not_mem_nil, or_false]
  tauto

theorem mem_product3 (lo hi : Fin 3 → ℤ) (t : ℤ × ℤ × ℤ) :
    t ∈ product3 lo hi ↔ (lo 0 ≤ t.1 ∧ t.1 < hi 0) ∧ (lo 1 ≤ t.2.1 ∧ t.2.1 < hi 1) ∧
      (lo 2 ≤ t.2.2 ∧ t.2.2 < hi 2) := by
  have hr : ∀ i a, a ∈ (List.range (hi i - lo i).toNat).map (fun n : ℕ => lo i + (n : ℤ)) ↔
      lo i ≤ a ∧ a < hi i := by
    intro i a
    simp only [List.mem_map, List.mem_range]
    constructor
    · rintro ⟨n, hn, rfl⟩; omega
    · intro h; exact ⟨(a - lo i).toNat, by omega, by omega⟩
  obtain ⟨i, j, k⟩ := t
  simp only [product3, List.mem_flatMap, List.mem_map (f := fun k => (_, _, k))]
  constructor
  · rintro ⟨a, ha, b, hb, c, hc, h⟩
    simp only [Prod.mk.injEq] at h
    obtain ⟨rfl, rfl, rfl⟩ := h
    exact ⟨(hr 0 _).1 ha, (hr 1 _).1 hb, (hr 2 _).1 hc⟩
  · rintro ⟨h0, h1, h2⟩
    exact ⟨i, (hr 0 _).2 h0, j, (hr 1 _).2 h1, k, (hr 2 _).2 h2, rfl⟩

/-- Parity of the coordinates of stabilizer centres. -/
def cellPar : Ec → ℤ
  | .primal => 1
  | .dual => 0

/-- Centres of the stabilizers in the order of the code. -/
def centers (ec : Ec) (dims : Fin 3 → ℕ) (bds : Fin 3 → Bd) : List V :=
  match ec with
  | .primal =>
    (product3 (fun _ => 0) fun i => (dims i : ℤ) - match bds i with
      | .primal => 1
      | .dual => 0
      | .periodic => 0).map fun t => ![2 * t.1 + 1, 2 * t.2.1 + 1, 2 * t.2.2 + 1]
  | .dual =>
    (product3 (fun i => match bds i with
        | .primal => -1
        | .dual => 0
        | .periodic => -1)
      fun i => (dims i : ℤ) - 1).map fun t => ![2 * t.1 + 2, 2 * t.2.1 + 2, 2 * t.2.2 + 2]

theorem sixBodies_eq (ec dims bds) : sixBodies ec dims bds = (centers ec dims bds).map around := by
  cases ec
  · simp only [sixBodies, primalCubes, centers, List.map_map]
    apply List.map_congr_left
    intro t _
    exact sixBody_eq t
  · simp only [sixBodies, dualCubes, centers, List.map_map]
    apply List.map_congr_left
    intro t _
    exact dualSixBody_eq t

theorem primalCubes_eq (dims bds) : primalCubes dims bds = (centers .primal dims bds).map around :=
  sixBodies_eq .primal dims bds

theorem forall3 (P : Fin 3 → Prop) : (∀ i, P i) ↔ P 0 ∧ P 1 ∧ P 2 := by
  rw [Fin.forall_fin_succ, Fin.forall_fin_two]; rfl

theorem exists3 (P : Fin 3 → Prop) : (∃ j, P j) ↔ P 0 ∨ P 1 ∨ P 2 := by
  rw [Fin.exists_fin_succ, Fin.exists_fin_two]; rfl

theorem vec_eta (c : V) : ![c 0, c 1, c 2] = c := by
  funext i; fin_cases i <;> rfl

theorem mem_centers (ec dims bds) (c : V) :
    c ∈ centers ec dims bds ↔ ∀ i, c i % 2 = cellPar ec ∧ inAxis (bds i) (dims i) (c i) := by
  cases ec
  · have key : ∀ (bd : Bd) (d : ℕ) (a : ℤ), (a % 2 = 1 ∧ inAxis bd d a) ↔
        (a % 2 = 1 ∧ 0 ≤ (a - 1) / 2 ∧ (a - 1) / 2 < (d : ℤ) - (match bd with
          | .primal => 1
          | .dual => 0
          | .periodic => 0)) := by
      intro bd d a
      cases bd <;> simp only [inAxis] <;> omega
    simp only [centers, List.mem_map, cellPar]
    constructor
    · rintro ⟨⟨i, j, k⟩, ht, rfl⟩
      rw [mem_product3] at ht
      simp only at ht
      rw [forall3]
      simp only [key]
      simp
      omega
    · intro h
      refine ⟨((c 0 - 1) / 2, (c 1 - 1) / 2, (c 2 - 1) / 2), ?_, ?_⟩
      · rw [mem_product3]
        exact ⟨((key _ _ _).1 (h 0)).2, ((key _ _ _).1 (h 1)).2, ((key _ _ _).1 (h 2)).2⟩
      · rw [← vec_eta c]
        have h0 := (h 0).1
        have h1 := (h 1).1
        have h2 := (h 2).1
        simp
        omega
  · have key : ∀ (bd : Bd) (d : ℕ) (a : ℤ), (a % 2 = 0 ∧ inAxis bd d a) ↔
        (a % 2 = 0 ∧ (match bd with
          | .primal => -1
          | .dual => 0
          | .periodic => -1) ≤ (a - 2) / 2 ∧ (a - 2) / 2 < (d : ℤ) - 1) := by
      intro bd d a
      cases bd <;> simp only [inAxis] <;> omega
    simp only [centers, List.mem_map, cellPar]
    constructor
    · rintro ⟨⟨i, j, k⟩, ht, rfl⟩
      rw [mem_product3] at ht
      simp only at ht
      rw [forall3]
      simp only [key]
      simp
      omega
    · intro h
      refine ⟨((c 0 - 2) / 2, (c 1 - 2) / 2, (c 2 - 2) / 2), ?_, ?_⟩
      · rw [mem_product3]
        exact ⟨((key _ _ _).1 (h 0)).2, ((key _ _ _).1 (h 1)).2, ((key _ _ _).1 (h 2)).2⟩
      · rw [← vec_eta c]
        have h0 := (h 0).1
        have h1 := (h 1).1
        have h2 := (h 2).1
        simp
        omega

theorem product3_nodup (lo hi : Fin 3 → ℤ) : (product3 lo hi).Nodup := by
  have hr : ∀ i, ((List.range (hi i - lo i).toNat).map (fun n : ℕ => lo i + (n : ℤ))).Nodup := by
    intro i
    apply List.Nodup.map
    · intro a b h; simp only at h; omega
    · exact List.nodup_range
  unfold product3
  simp only
  rw [List.nodup_flatMap]
  refine ⟨fun i _ => ?_, ?_⟩
  · rw [List.nodup_flatMap]
    refine ⟨fun j _ => ?_, ?_⟩
    · apply List.Nodup.map _ (hr 2)
      intro a b h; simpa using h
    · refine (hr 1).imp ?_
      intro a b hab
      simp only [Function.onFun, List.disjoint_left, List.mem_map]
      rintro x ⟨c, _, rfl⟩ ⟨d, _, h⟩
      simp at h; exact hab h.1.symm
  · refine (hr 0).imp ?_
    intro a b hab
    simp only [Function.onFun, List.disjoint_left, List.mem_flatMap, List.mem_map]
    rintro x ⟨c, _, c', _, rfl⟩ ⟨d, _, d', _, h⟩
    simp at h; exact hab h.1.symm

theorem centers_nodup (ec dims bds) : (centers ec dims bds).Nodup := by
  cases ec <;> simp only [centers] <;> apply List.Nodup.map _ (product3_nodup _ _)
  · rintro ⟨a, b, c⟩ ⟨a', b', c'⟩ h
    have h0 := congrFun h 0
    have h1 := congrFun h 1
    have h2 := congrFun h 2
    simp at h0 h1 h2
    simp
    omega
  · rintro ⟨a, b, c⟩ ⟨a', b', c'⟩ h
    have h0 := congrFun h 0
    have h1 := congrFun h 1
    have h2 := congrFun h 2
    simp at h0 h1 h2
    simp
    omega

/-! ### One axis -/

/-- The coordinate lies beyond the boundary (per-axis form of `beyond`). -/
def bey (bd : Bd) (d : ℕ) (a : ℤ) : Prop :=
  match bd with
  | .primal => False
  | .dual => a = 0 ∨ a = 2 * d
  | .periodic => a ≠ 0 ∧ a = 2 * d

theorem beyond_iff (dims bds) (v : V) : beyond dims bds v = true ↔ ∃ i, bey (bds i) (dims i) (v i) := by
  unfold beyond
  rw [List.any_eq_true]
  simp only [List.mem_finRange, true_and]
  apply exists_congr
  intro i
  cases hb : bds i <;> simp [bey]
  by_cases h : v i = 0 <;> simp [h]

theorem inAxis_not_bey {bd d a} (h : inAxis bd d a) : ¬ bey bd d a := by
  cases bd <;> simp only [inAxis, bey, not_false_eq_true] at * <;> omega

theorem axis_odd_step {bd d a b} (h : inAxis bd d a) (ha : a % 2 = 1) (hb : b = a + 1 ∨ b = a - 1) :
    ¬ bey bd d b ↔ inAxis bd d b := by
  cases bd <;> simp only [inAxis, bey, not_false_eq_true, true_iff] at * <;> omega

theorem axis_even_has {bd} {d : ℕ} {a : ℤ} (hd : 1 ≤ d ∧ (bd ≠ .periodic → 2 ≤ d)) (h : inAxis bd d a)
    (ha : a % 2 = 0) : inAxis bd d (a + 1) ∨ inAxis bd d (a - 1) := by
  cases bd <;> simp only [inAxis, ne_eq, reduceCtorEq, not_false_eq_true, not_true, forall_const,
    false_imp_iff] at * <;> omega

theorem axis_odd_has {bd} {d : ℕ} {a : ℤ} (hd : 1 ≤ d ∧ (bd ≠ .periodic → 2 ≤ d)) (h : inAxis bd d a)
    (ha : a % 2 = 1) : inAxis bd d (a + 1) ∨ inAxis bd d (a - 1) := by
  cases bd <;> simp only [inAxis, ne_eq, reduceCtorEq, not_false_eq_true, not_true, forall_const,
    false_imp_iff] at * <;> omega

theorem nextTo_symm {bd d a b} : nextTo bd d a b ↔ nextTo bd d b a := by
  unfold nextTo; tauto

theorem adjacent_symm {dims bds x y} : adjacent dims bds x y ↔ adjacent dims bds y x := by
  unfold adjacent
  apply exists_congr
  intro i
  rw [nextTo_symm]
  apply and_congr_right
  intro _
  constructor <;> intro h j hj <;> exact (h j hj).symm

theorem nextTo_parity {bd d a b} (h : nextTo bd d a b) : (a + b) % 2 = 1 := by
  unfold nextTo at h; omega

theorem mem_denested {dims bds} (hd : goodDims dims bds) (x : V) :
    (x ∈ denested dims bds ∧ ¬ beyond dims bds x = true) ↔ PrimalPt x ∧ inBox dims bds x := by
  unfold denested
  rw [List.mem_dedup, primalCubes_eq, beyond_iff]
  simp only [List.mem_flatten, List.mem_map, exists_exists_and_eq_and, not_exists, mem_around, mem_centers,
    cellPar]
  constructor
  · rintro ⟨⟨c, hc, i, hx⟩, hb⟩
    have hx' : ∀ j, j ≠ i → x j = c j := by
      intro j hj
      rcases hx with rfl | rfl <;> simp [hj]
    have hxi : x i = c i + 1 ∨ x i = c i - 1 := by
      rcases hx with rfl | rfl <;> simp
    refine ⟨⟨i, ?_, ?_⟩, ?_⟩
    · have := (hc i).1; omega
    · intro j hj; rw [hx' j hj]; exact (hc j).1
    · intro j
      by_cases hj : j = i
      · subst hj
        exact (axis_odd_step (hc j).2 (hc j).1 hxi).1 (hb j)
      · rw [hx' j hj]; exact (hc j).2
  · rintro ⟨⟨i, hi, hj⟩, hbox⟩
    refine ⟨?_, fun i => inAxis_not_bey (hbox i)⟩
    rcases axis_even_has (hd i) (hbox i) hi with h | h
    · refine ⟨Function.update x i (x i + 1), ?_, i, ?_⟩
      · intro j
        by_cases hji : j = i
        · subst hji; simp only [Function.update_self]; exact ⟨by omega, h⟩
        · simp only [Function.update_of_ne hji]; exact ⟨hj j hji, hbox j⟩
      · left; simp
    · refine ⟨Function.update x i (x i - 1), ?_, i, ?_⟩
      · intro j
        by_cases hji : j = i
        · subst hji; simp only [Function.update_self]; exact ⟨by omega, h⟩
        · simp only [Function.update_of_ne hji]; exact ⟨hj j hji, hbox j⟩
      · right; simp

/-! ### The set of operations -/

theorem third_axis : ∀ i j : Fin 3, j ≠ i → ∃ k : Fin 3, k ≠ i ∧ k ≠ j ∧ ∀ m, m = i ∨ m = j ∨ m = k := by
  decide

theorem other_axis : ∀ i : Fin 3, ∃ j : Fin 3, j ≠ i := by decide

def step (v n : V) : Prop :=
  ∃ j, v j % 2 = 1 ∧ (n = Function.update v j (v j + 1) ∨ n = Function.update v j (v j - 1))

theorem step_dual {v n : V} (hv : PrimalPt v) (h : step v n) : DualPt n := by
  obtain ⟨i, hi, hr⟩ := hv
  obtain ⟨j, hj, hn⟩ := h
  have hij : j ≠ i := by rintro rfl; omega
  -- the remaining axis
  obtain ⟨k, hki, hkj, hall⟩ : ∃ k : Fin 3, k ≠ i ∧ k ≠ j ∧ ∀ m, m = i ∨ m = j ∨ m = k :=
    third_axis i j hij
  refine ⟨k, ?_, ?_⟩
  · have : n k = v k := by rcases hn with rfl | rfl <;> simp [hkj]
    rw [this]; exact hr k hki
  · intro m hm
    rcases hall m with rfl | rfl | rfl
    · have : n m = v m := by rcases hn with rfl | rfl <;> simp [hij.symm]
      rw [this]; exact hi
    · rcases hn with rfl | rfl <;> simp <;> omega
    · exact absurd rfl hm

theorem step_box {dims bds} {v n : V} (hb : inBox dims bds v) (h : step v n) :
    ¬ beyond dims bds n = true ↔ inBox dims bds n := by
  obtain ⟨j, hj, hn⟩ := h
  have hn' : ∀ m, m ≠ j → n m = v m := by
    intro m hm; rcases hn with rfl | rfl <;> simp [hm]
  have hnj : n j = v j + 1 ∨ n j = v j - 1 := by
    rcases hn with rfl | rfl <;> simp
  rw [beyond_iff, not_exists]
  constructor
  · intro h m
    by_cases hm : m = j
    · subst hm; exact (axis_odd_step (hb m) hj hnj).1 (h m)
    · rw [hn' m hm]; exact hb m
  · intro h m; exact inAxis_not_bey (h m)

theorem mem_zeroPeriodic (bds) (n : V) (i : Fin 3) :
    i ∈ zeroPeriodic bds n ↔ n i = 0 ∧ bds i = .periodic := by
  simp [zeroPeriodic]

theorem mem_ops {dims bds} (hd : goodDims dims bds) (pol) {verts : List V}
    (hv : ∀ x, x ∈ verts ↔ x ∈ denested dims bds) (op : Op) :
    op ∈ verts.flatMap (vertexOps dims bds pol) ↔
      ∃ v n, PrimalPt v ∧ inBox dims bds v ∧ step v n ∧ inBox dims bds n ∧
        (op = .node v true ∨ op = .node n false ∨ op = .edge v n (weightOf pol v n) false ∨
          ∃ i, n i = 0 ∧ bds i = .periodic ∧
            (op = .node (Function.update n i (2 * (dims i : ℤ) - 1)) true ∨
             op = .edge n (Function.update n i (2 * (dims i : ℤ) - 1))
                (weightOf pol n (Function.update n i (2 * (dims i : ℤ) - 1))) true)) := by
  rw [List.mem_flatMap]
  constructor
  · rintro ⟨v, hvm, hop⟩
    unfold vertexOps at hop
    split_ifs at hop with hb
    · cases hop
    · obtain ⟨hp, hbox⟩ := (mem_denested hd v).1 ⟨(hv v).1 hvm, hb⟩
      rw [List.mem_flatMap] at hop
      obtain ⟨n, hn, hop⟩ := hop
      have hst : step v n := (mem_dualNeighbours hp n).1 hn
      unfold neighborOps at hop
      split_ifs at hop with hnb
      · cases hop
      · refine ⟨v, n, hp, hbox, hst, (step_box hbox hst).1 hnb, ?_⟩
        simp only [List.mem_append, List.mem_cons, List.not_mem_nil, or_false, List.mem_flatMap,
          mem_zeroPeriodic] at hop
        rcases hop with (h | h | h) | ⟨i, ⟨h1, h2⟩, h3⟩
        · exact Or.inl h
        · exact Or.inr (Or.inl h)
        · exact Or.inr (Or.inr (Or.inl h))
        · exact Or.inr (Or.inr (Or.inr ⟨i, h1, h2, h3⟩))
  · rintro ⟨v, n, hp, hbox, hst, hnbox, hop⟩
    obtain ⟨hvm, hb⟩ := (mem_denested hd v).2 ⟨hp, hbox⟩
    refine ⟨v, (hv v).2 hvm, ?_⟩
    unfold vertexOps
    rw [if_neg hb, List.mem_flatMap]
    refine ⟨n, (mem_dualNeighbours hp n).2 hst, ?_⟩
    unfold neighborOps
    rw [if_neg ((step_box hbox hst).2 hnbox)]
    simp only [List.mem_append, List.mem_cons, List.not_mem_nil, or_false, List.mem_flatMap,
      mem_zeroPeriodic]
    rcases hop with h | h | h | ⟨i, h1, h2, h3⟩
    · exact Or.inl (Or.inl h)
    · exact Or.inl (Or.inr (Or.inl h))
    · exact Or.inl (Or.inr (Or.inr h))
    · exact Or.inr ⟨i, ⟨h1, h2⟩, h3⟩

/-- A primal point of the box has a neighbour. -/
theorem exists_step {dims bds} (hd : goodDims dims bds) {v : V} (hp : PrimalPt v) (hb : inBox dims bds v) :
    ∃ n, step v n ∧ inBox dims bds n := by
  obtain ⟨i, hi, hr⟩ := hp
  obtain ⟨j, hji⟩ : ∃ j : Fin 3, j ≠ i := other_axis i
  rcases axis_odd_has (hd j) (hb j) (hr j hji) with h | h
  · refine ⟨_, ⟨j, hr j hji, Or.inl rfl⟩, ?_⟩
    intro m
    by_cases hm : m = j
    · subst hm; simpa using h
    · simpa [hm] using hb m
  · refine ⟨_, ⟨j, hr j hji, Or.inr rfl⟩, ?_⟩
    intro m
    by_cases hm : m = j
    · subst hm; simpa using h
    · simpa [hm] using hb m

/-- Changing an even coordinate of a dual point to an odd one gives a primal point. -/
theorem dual_update_primal {n : V} (hn : DualPt n) {i : Fin 3} (hi : n i % 2 = 0) {a : ℤ} (ha : a % 2 = 1) :
    PrimalPt (Function.update n i a) := by
  obtain ⟨k, hk, hr⟩ := hn
  have hki : k ≠ i := by rintro rfl; omega
  obtain ⟨m, hmi, hmk, hall⟩ : ∃ m : Fin 3, m ≠ i ∧ m ≠ k ∧ ∀ j, j = i ∨ j = k ∨ j = m :=
    third_axis i k hki
  refine ⟨m, by simp [hmi]; exact hr m hmk, ?_⟩
  intro j hj
  rcases hall j with rfl | rfl | rfl
  · simpa using ha
  · simp [hki]; exact hk
  · exact absurd rfl hj

theorem primal_update_dual {v : V} (hn : PrimalPt v) {i : Fin 3} (hi : v i % 2 = 1) {a : ℤ} (ha : a % 2 = 0) :
    DualPt (Function.update v i a) := by
  obtain ⟨k, hk, hr⟩ := hn
  have hki : k ≠ i := by rintro rfl; omega
  obtain ⟨m, hmi, hmk, hall⟩ : ∃ m : Fin 3, m ≠ i ∧ m ≠ k ∧ ∀ j, j = i ∨ j = k ∨ j = m :=
    third_axis i k hki
  refine ⟨m, by simp [hmi]; exact hr m hmk, ?_⟩
  intro j hj
  rcases hall j with rfl | rfl | rfl
  · simpa using ha
  · simp [hki]; exact hk
  · exact absurd rfl hj

theorem inBox_update {dims bds} {x : V} (hx : inBox dims bds x) {i : Fin 3} {a : ℤ}
    (ha : inAxis (bds i) (dims i) a) : inBox dims bds (Function.update x i a) := by
  intro m
  by_cases hm : m = i
  · subst hm; simpa using ha
  · simpa [hm] using hx m

/-- A dual point of the box has a neighbour. -/
theorem exists_step' {dims bds} (hd : goodDims dims bds) {n : V} (hp : DualPt n) (hb : inBox dims bds n) :
    ∃ v, PrimalPt v ∧ inBox dims bds v ∧ step v n := by
  obtain ⟨i, hi, hr⟩ := id hp
  obtain ⟨j, hji⟩ : ∃ j : Fin 3, j ≠ i := other_axis i
  have hj := hr j hji
  rcases axis_even_has (hd j) (hb j) hj with h | h
  · exact ⟨_, dual_update_primal hp hj (a := n j + 1) (by omega), inBox_update hb h, j,
      by simp; omega, Or.inr (by simp)⟩
  · exact ⟨_, dual_update_primal hp hj (a := n j - 1) (by omega), inBox_update hb h, j,
      by simp; omega, Or.inl (by simp)⟩

theorem periodic_other {dims bds} (hd : goodDims dims bds) {i : Fin 3} (hb : bds i = .periodic) :
    inAxis (bds i) (dims i) (2 * (dims i : ℤ) - 1) ∧ inAxis (bds i) (dims i) 1 := by
  have := (hd i).1
  rw [hb]; simp only [inAxis]; omega

theorem ops_node {dims bds} (hd : goodDims dims bds) (pol) {verts : List V}
    (hv : ∀ x, x ∈ verts ↔ x ∈ denested dims bds) (u : V) (b : Bool) :
    Op.node u b ∈ verts.flatMap (vertexOps dims bds pol) ↔
      inBox dims bds u ∧ ((b = true ∧ PrimalPt u) ∨ (b = false ∧ DualPt u)) := by
  rw [mem_ops hd pol hv]
  constructor
  · rintro ⟨v, n, hp, hb, hst, hnb, h | h | h | ⟨i, h0, hper, h | h⟩⟩
    · simp only [Op.node.injEq] at h; obtain ⟨rfl, rfl⟩ := h; exact ⟨hb, Or.inl ⟨rfl, hp⟩⟩
    · simp only [Op.node.injEq] at h; obtain ⟨rfl, rfl⟩ := h; exact ⟨hnb, Or.inr ⟨rfl, step_dual hp hst⟩⟩
    · cases h
    · simp only [Op.node.injEq] at h; obtain ⟨rfl, rfl⟩ := h
      exact ⟨inBox_update hnb (periodic_other hd hper).1,
        Or.inl ⟨rfl, dual_update_primal (step_dual hp hst) (by omega) (by omega)⟩⟩
    · cases h
  · rintro ⟨hb, ⟨rfl, hp⟩ | ⟨rfl, hp⟩⟩
    · obtain ⟨n, hn, hnb⟩ := exists_step hd hp hb
      exact ⟨u, n, hp, hb, hn, hnb, Or.inl rfl⟩
    · obtain ⟨v, hvp, hvb, hst⟩ := exists_step' hd hp hb
      exact ⟨v, u, hvp, hvb, hst, hb, Or.inr (Or.inl rfl)⟩

theorem ops_edge {dims bds} (hd : goodDims dims bds) (pol) {verts : List V}
    (hv : ∀ x, x ∈ verts ↔ x ∈ denested dims bds) (u v : V) (w : ℤ) (p : Bool) :
    Op.edge u v w p ∈ verts.flatMap (vertexOps dims bds pol) ↔
      inBox dims bds u ∧ inBox dims bds v ∧ w = weightOf pol u v ∧
        ((p = false ∧ PrimalPt u ∧ DualPt v ∧ step u v) ∨
         (p = true ∧ DualPt u ∧ PrimalPt v ∧ ∃ i, u i = 0 ∧ bds i = .periodic ∧
            v = Function.update u i (2 * (dims i : ℤ) - 1))) := by
  rw [mem_ops hd pol hv]
  constructor
  · rintro ⟨v, n, hp, hb, hst, hnb, h | h | h | ⟨i, h0, hper, h | h⟩⟩
    · cases h
    · cases h
    · simp only [Op.edge.injEq] at h; obtain ⟨rfl, rfl, rfl, rfl⟩ := h
      exact ⟨hb, hnb, rfl, Or.inl ⟨rfl, hp, step_dual hp hst, hst⟩⟩
    · cases h
    · simp only [Op.edge.injEq] at h; obtain ⟨rfl, rfl, rfl, rfl⟩ := h
      exact ⟨hnb, inBox_update hnb (periodic_other hd hper).1, rfl,
        Or.inr ⟨rfl, step_dual hp hst, dual_update_primal (step_dual hp hst) (by omega) (by omega),
          i, h0, hper, rfl⟩⟩
  · rintro ⟨hb, hvb, rfl, ⟨rfl, hp, hdual, hst⟩ | ⟨rfl, hp, hpr, i, h0, hper, rfl⟩⟩
    · exact ⟨u, v, hp, hb, hst, hvb, Or.inr (Or.inr (Or.inl rfl))⟩
    · refine ⟨Function.update u i 1, u, dual_update_primal hp (by omega) (by omega),
        inBox_update hb (periodic_other hd hper).2, ⟨i, by simp, Or.inr ?_⟩, hb, ?_⟩
      · simp [h0.symm]
      · exact Or.inr (Or.inr (Or.inr ⟨i, h0, hper, Or.inr rfl⟩))

/-! ### Nodes and edges of the graph -/

section
variable {dims : Fin 3 → ℕ} {bds : Fin 3 → Bd} (hd : goodDims dims bds) (pol : Option (V → V → ℤ))
  {verts : List V} (hv : ∀ x, x ∈ verts ↔ x ∈ denested dims bds)
include hd hv

theorem rhg_keys (x : V) : x ∈ PyDict.keys (rhgGraph dims bds pol verts).nodes ↔ isNode dims bds x := by
  rw [(rhgGraph_built dims bds pol verts).nodeKey]
  simp only [ops_node hd pol hv]
  unfold isNode
  rw [evens_one_iff, evens_two_iff]
  constructor
  · rintro ⟨b, hb, h | h⟩
    · exact ⟨hb, Or.inl h.2⟩
    · exact ⟨hb, Or.inr h.2⟩
  · rintro ⟨hb, h | h⟩
    · exact ⟨true, hb, Or.inl ⟨rfl, h⟩⟩
    · exact ⟨false, hb, Or.inr ⟨rfl, h⟩⟩

theorem rhg_type (x : V) (b : Bool) (h : PyDict.get? (rhgGraph dims bds pol verts).nodes x = some b) :
    b = decide (evens x = 1) := by
  have := (ops_node hd pol hv x b).1 ((rhgGraph_built dims bds pol verts).nodeVal x b h)
  rcases this.2 with ⟨rfl, hx⟩ | ⟨rfl, hx⟩
  · simp [evens_one_iff, hx]
  · have := (evens_two_iff x).2 hx
    simp; omega

omit hd hv in
theorem parity_of_nodes {x y : V} (hx : PrimalPt x ∨ DualPt x) (hy : PrimalPt y ∨ DualPt y) {i : Fin 3}
    (hi : (x i + y i) % 2 = 1) (hj : ∀ j, j ≠ i → x j = y j) :
    (PrimalPt x ∧ DualPt y ∧ x i % 2 = 1 ∧ y i % 2 = 0) ∨ (DualPt x ∧ PrimalPt y ∧ x i % 2 = 0 ∧ y i % 2 = 1) := by
  have hyx : y = Function.update x i (y i) := by
    funext m
    by_cases hm : m = i
    · subst hm; simp
    · simp [hm, hj m hm]
  have hxy : x = Function.update y i (x i) := by
    funext m
    by_cases hm : m = i
    · subst hm; simp
    · simp [hm, hj m hm]
  rcases hx with hx | hx
  · by_cases hxi : x i % 2 = 1
    · left
      refine ⟨hx, ?_, hxi, by omega⟩
      rw [hyx]; exact primal_update_dual hx hxi (by omega)
    · exfalso
      -- `y` would have all coordinates odd
      obtain ⟨k, hk, hr⟩ := hx
      have : k = i := by by_contra hc; have := hr i (Ne.symm hc); omega
      subst this
      have hall : ∀ m, y m % 2 = 1 := by
        intro m
        by_cases hm : m = k
        · subst hm; omega
        · rw [← hj m hm]; exact hr m hm
      rcases hy with ⟨m, hm, _⟩ | ⟨m, _, hm⟩
      · have := hall m; omega
      · obtain ⟨q, hq⟩ : ∃ q : Fin 3, q ≠ m := other_axis m
        have := hm q hq; have := hall q; omega
  · by_cases hxi : x i % 2 = 0
    · right
      refine ⟨hx, ?_, hxi, by omega⟩
      rw [hyx]; exact dual_update_primal hx hxi (by omega)
    · exfalso
      obtain ⟨k, hk, hr⟩ := hx
      have : k = i := by by_contra hc; have := hr i (Ne.symm hc); omega
      subst this
      have hall : ∀ m, y m % 2 = 0 := by
        intro m
        by_cases hm : m = k
        · subst hm; omega
        · rw [← hj m hm]; exact hr m hm
      rcases hy with ⟨m, _, hm⟩ | ⟨m, hm, _⟩
      · obtain ⟨q, hq⟩ : ∃ q : Fin 3, q ≠ m := other_axis m
        have := hm q hq; have := hall q; omega
      · have := hall m; omega

omit hd hv in
/-- Primal-dual adjacency is either a step or a periodic link. -/
theorem adj_cases {x y : V} (hx : PrimalPt x) (hy : DualPt y) (h : adjacent dims bds x y) :
    step x y ∨ ∃ i, y i = 0 ∧ bds i = .periodic ∧ x = Function.update y i (2 * (dims i : ℤ) - 1) := by
  obtain ⟨i, hi, hj⟩ := h
  have hpar := nextTo_parity hi
  have hyx : y = Function.update x i (y i) := by
    funext m
    by_cases hm : m = i
    · subst hm; simp
    · simp [hm, hj m hm]
  have hxy : x = Function.update y i (x i) := by
    funext m
    by_cases hm : m = i
    · subst hm; simp
    · simp [hm, hj m hm]
  rcases parity_of_nodes (Or.inl hx) (Or.inr hy) hpar hj with ⟨_, _, h1, h2⟩ | ⟨h, _⟩
  · rcases hi with hi | hi | ⟨hp, hi | hi⟩
    · left; exact ⟨i, h1, Or.inr (by rw [show x i - 1 = y i by omega]; exact hyx)⟩
    · left; exact ⟨i, h1, Or.inl (by rw [show x i + 1 = y i by omega]; exact hyx)⟩
    · omega
    · right; exact ⟨i, hi.2, hp, by rw [← hi.1]; exact hxy⟩
  · exact (not_primal_dual hx h).elim

omit hd hv in
theorem step_adjacent {x y : V} (h : step x y) : adjacent dims bds x y := by
  obtain ⟨i, _, h⟩ := h
  refine ⟨i, ?_, ?_⟩
  · rcases h with rfl | rfl
    · right; left; simp
    · left; simp
  · intro j hj; rcases h with rfl | rfl <;> simp [hj]

omit hd hv in
theorem link_adjacent {x y : V} {i} (h0 : y i = 0) (hp : bds i = .periodic)
    (h : x = Function.update y i (2 * (dims i : ℤ) - 1)) : adjacent dims bds x y := by
  subst h
  refine ⟨i, Or.inr (Or.inr ⟨hp, Or.inr ?_⟩), ?_⟩
  · simp [h0]
  · intro j hj; simp [hj]

theorem rhg_edges (x y : V) :
    s(x, y) ∈ PyDict.keys (rhgGraph dims bds pol verts).edges ↔
      isNode dims bds x ∧ isNode dims bds y ∧ adjacent dims bds x y := by
  rw [(rhgGraph_built dims bds pol verts).edgeKey]
  simp only [ops_edge hd pol hv]
  unfold isNode
  simp only [evens_one_iff, evens_two_iff]
  constructor
  · rintro ⟨u, v, w, p, hk, hub, hvb, -, h⟩
    have main : ((inBox dims bds u ∧ (PrimalPt u ∨ DualPt u)) ∧ (inBox dims bds v ∧ (PrimalPt v ∨ DualPt v)) ∧
        adjacent dims bds u v) := by
      rcases h with ⟨-, h1, h2, h3⟩ | ⟨-, h1, h2, i, h3, h4, h5⟩
      · exact ⟨⟨hub, Or.inl h1⟩, ⟨hvb, Or.inr h2⟩, step_adjacent h3⟩
      · exact ⟨⟨hub, Or.inr h1⟩, ⟨hvb, Or.inl h2⟩, adjacent_symm.1 (link_adjacent h3 h4 h5)⟩
    rw [Sym2.eq_iff] at hk
    rcases hk with ⟨rfl, rfl⟩ | ⟨rfl, rfl⟩
    · exact main
    · exact ⟨main.2.1, main.1, adjacent_symm.1 main.2.2⟩
  · rintro ⟨⟨hxb, hx⟩, ⟨hyb, hy⟩, hadj⟩
    have main : ∀ x y : V, inBox dims bds x → inBox dims bds y → PrimalPt x → DualPt y →
        adjacent dims bds x y → ∃ u v w p, s(u, v) = s(x, y) ∧ inBox dims bds u ∧ inBox dims bds v ∧
          w = weightOf pol u v ∧
          ((p = false ∧ PrimalPt u ∧ DualPt v ∧ step u v) ∨
           (p = true ∧ DualPt u ∧ PrimalPt v ∧ ∃ i, u i = 0 ∧ bds i = .periodic ∧
            v = Function.update u i (2 * (dims i : ℤ) - 1))) := by
      intro x y hxb hyb hx hy hadj
      rcases adj_cases hx hy hadj with h | h
      · exact ⟨x, y, _, false, rfl, hxb, hyb, rfl, Or.inl ⟨rfl, hx, hy, h⟩⟩
      · exact ⟨y, x, _, true, Sym2.eq_swap, hyb, hxb, rfl, Or.inr ⟨rfl, hy, hx, h⟩⟩
    obtain ⟨i, hi, hj⟩ := id hadj
    rcases parity_of_nodes hx hy (nextTo_parity hi) hj with ⟨h1, h2, _⟩ | ⟨h1, h2, _⟩
    · exact main x y hxb hyb h1 h2 hadj
    · rw [Sym2.eq_swap (a := x)]; exact main y x hyb hxb h2 h1 (adjacent_symm.1 hadj)

end

end Flamingpy.SurfaceCode
