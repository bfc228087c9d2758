import Verif.Proofs.EGraph

/-!
# Properties of `EGraph`: C15-C19, C21

The specification below talks about the graph (`nodes`, `edges`), the two public
dictionaries, and the values returned by calls.
-/

namespace Flamingpy.EGraph

open Flamingpy

/-! ### Specification -/

/-- An `EGraph` as constructed from a networkx graph: a simple graph without indices and
without a cached matrix; a micronode is listed at most once in the macronode dictionary. -/
structure Fresh (g : EG) : Prop where
  nodes_nodup : g.nodes.Nodup
  edge_ends : ∀ e ∈ g.edges, e.1 ∈ g.nodes ∧ e.2.1 ∈ g.nodes
  edge_unique : ∀ e ∈ g.edges, ∀ e' ∈ g.edges,
    (e.1 = e'.1 ∧ e.2.1 = e'.2.1) ∨ (e.1 = e'.2.1 ∧ e.2.1 = e'.1) → e = e'
  no_indices : g.toIndices = none
  no_points : g.toPoints = none
  no_matrix : g.adjMat = none
  micro : ∀ md, g.macroToMicro = some md →
    (md.map (·.1)).Nodup ∧ (md.flatMap (·.2)).Nodup ∧ ∀ p ∈ md.flatMap (·.2), p ∈ g.nodes

/-- `to_indices[p] == i`. -/
def HasIndex (g : EG) (p : Pt) (i : ℕ) : Prop := ∃ d, g.toIndices = some d ∧ PyDict.get? d p = some i

/-- `to_points[i] == p`. -/
def HasPoint (g : EG) (i : ℕ) (p : Pt) : Prop := ∃ d, g.toPoints = some d ∧ PyDict.get? d i = some p

/-- Both dictionaries are set, are inverse to each other and cover exactly the nodes. -/
def Coherent (g : EG) : Prop :=
  g.toIndices.isSome ∧ g.toPoints.isSome ∧ (∀ p i, HasIndex g p i ↔ HasPoint g i p) ∧
  ∀ p, p ∈ g.nodes ↔ ∃ i, HasIndex g p i

/-- `w` is the weight of the edge `{p, q}`, 0 when there is no such edge. -/
def IsWeight (g : EG) (p q : Pt) (w : ℤ) : Prop :=
  ((p, q, w) ∈ g.edges ∨ (q, p, w) ∈ g.edges) ∨
  (w = 0 ∧ ¬ ∃ w', (p, q, w') ∈ g.edges ∨ (q, p, w') ∈ g.edges)

/-- `a` is the adjacency matrix of the graph in the order of `to_points`. -/
def IsAdjacency (g : EG) (a : List (List ℤ)) : Prop :=
  a.length = g.nodes.length ∧
  ∀ i < g.nodes.length, ∃ row, a[i]? = some row ∧ row.length = g.nodes.length ∧
    ∀ j < g.nodes.length, ∃ p q w, HasPoint g i p ∧ HasPoint g j q ∧ row[j]? = some w ∧
      IsWeight g p q w

/-- Strict lexicographic order on coordinates. -/
def PtLt (a b : Pt) : Prop :=
  a.1 < b.1 ∨ (a.1 = b.1 ∧ (a.2.1 < b.2.1 ∨ (a.2.1 = b.2.1 ∧ a.2.2 < b.2.2)))

/-- The neighbours handed to `add_qubit` as positions are in the graph. -/
def NeighborsExist (g : EG) : Op → Prop
  | .addQubit _ (some (.tuples l)) _ => ∀ q ∈ l, q ∈ g.nodes
  | _ => True

/-- Side condition of C17: neighbours exist, and nothing is added to a graph that has index
dictionaries but no qubits left. -/
def Admissible (g : EG) (op : Op) : Prop :=
  NeighborsExist g op ∧
  ((∃ q nb m, op = .addQubit q nb m) → g.toIndices = none ∨ g.nodes ≠ [])

/-- Side condition of C18: in addition, a rejected `add_qubit` left the graph alone. -/
def CleanAdmissible (g : EG) (op : Op) : Prop :=
  Admissible g op ∧
  ((∃ q nb m, op = .addQubit q nb m) → (step g op).1 = .ok () ∨ (step g op).2 = g)

/-- Side condition of C21: additions record the micronode. -/
def MacroAdmissible (g : EG) (op : Op) : Prop :=
  Admissible g op ∧ ∀ q nb m, op = .addQubit q nb m → m = true

/-- States reached from `g₀` by calls satisfying a side condition (outcomes are arbitrary:
calls may raise). -/
inductive Reach (A : EG → Op → Prop) (g₀ : EG) : EG → Prop
  | refl : Reach A g₀ g₀
  | step {g : EG} {op : Op} : Reach A g₀ g → A g op → Reach A g₀ (step g op).2

theorem Reach.mono {A B : EG → Op → Prop} (h : ∀ g op, A g op → B g op) {g₀ g : EG}
    (hr : Reach A g₀ g) : Reach B g₀ g := by
  induction hr with
  | refl => exact .refl
  | step _ ha ih => exact .step ih (h _ _ ha)

/-! ### Glue -/

theorem Fresh.inv {g : EG} (h : Fresh g) : Inv g :=
  ⟨h.nodes_nodup, h.edge_ends, fun e he e' he' hj => h.edge_unique e he e' he' ((joins_iff _ _ _).mp hj),
    Or.inl ⟨h.no_indices, h.no_points⟩, h.micro⟩

theorem nbsIn_of {g : EG} {q nb m} (h : NeighborsExist g (.addQubit q nb m)) : nbsIn g nb := by
  unfold nbsIn
  split
  · exact h
  · trivial

theorem inv_step {g : EG} (h : Inv g) {op : Op} (ha : Admissible g op) : Inv (step g op).2 := by
  cases op with
  | addQubit q nb m =>
    rcases addQubit_spec h q nb m (nbsIn_of ha.1) (ha.2 ⟨q, nb, m, rfl⟩) with ⟨e, he⟩ | ⟨p, _, _, hi, _⟩
    · simp only [step, he]; exact h
    · exact hi
  | removeQubit arg =>
    rcases removeQubit_spec h arg with ⟨e, he⟩ | ⟨p, ti, _, _, he, hi, _⟩
    · simp only [step, he]; exact h
    · simp only [step, he]; exact hi
  | indexGenerator =>
    have := inv_indexGenerator h
    simp only [step]
    split <;> (rename_i hx; rw [hx] at this; exact this)
  | adjGenerator =>
    have := inv_adjGenerator h
    simp only [step]
    split <;> (rename_i hx; rw [hx] at this; exact this)

theorem inv_reach {g₀ g : EG} (h : Fresh g₀) (hr : Reach Admissible g₀ g) : Inv g := by
  induction hr with
  | refl => exact h.inv
  | step _ ha ih => exact inv_step ih ha

theorem get?_swp {ti : List (Pt × ℕ)} (hk : (PyDict.keys ti).Nodup) (hv : (PyDict.values ti).Nodup)
    (p : Pt) (i : ℕ) : PyDict.get? ti p = some i ↔ PyDict.get? (ti.map swp) i = some p := by
  rw [PyDict.get?_iff_mem hk, PyDict.get?_iff_mem (by rw [keys_swp]; exact hv)]
  constructor
  · intro h; exact List.mem_map.mpr ⟨_, h, rfl⟩
  · intro h
    obtain ⟨e, he, heq⟩ := List.mem_map.mp h
    obtain ⟨a, b⟩ := e
    simp only [swp, Prod.mk.injEq] at heq
    rw [← heq.1, ← heq.2]; exact he

theorem coherent_of_inv {g : EG} (h : Inv g) (hs : g.toIndices.isSome) : Coherent g := by
  rcases h.idx with ⟨i1, _⟩ | ⟨ti, i1, i2, i3, i4⟩
  · rw [i1] at hs; cases hs
  · have hk : (PyDict.keys ti).Nodup := i3.nodup_iff.mpr h.nd
    refine ⟨hs, by rw [i2]; rfl, ?_, ?_⟩
    · intro p i
      unfold HasIndex HasPoint
      rw [i1, i2]
      simp only [Option.some.injEq, exists_eq_left']
      exact get?_swp hk i4 p i
    · intro p
      unfold HasIndex
      rw [i1]
      simp only [Option.some.injEq, exists_eq_left']
      rw [← i3.mem_iff, ← PyDict.get?_isSome_iff, Option.isSome_iff_exists]

theorem isWeight_weight {g : EG} (h : Inv g) (p q : Pt) : IsWeight g p q (weight g p q) := by
  by_cases hw : ∃ w', (p, q, w') ∈ g.edges ∨ (q, p, w') ∈ g.edges
  · obtain ⟨w, hw⟩ := hw
    left
    rw [weight_of_mem h.uniq hw]; exact hw
  · exact Or.inr ⟨weight_of_not_mem hw, hw⟩

/-- Reading a freshly computed matrix. -/
theorem fresh_matrix {g : EG} (h : Inv g) {d : List (ℕ × Pt)} (hd : g.toPoints = some d)
    {pts : List Pt} (hp : pointsInOrder d g.nodes.length = some pts) :
    IsAdjacency { g with adjMat := some (pts.map fun u => pts.map fun v => weight g u v) }
      (pts.map fun u => pts.map fun v => weight g u v) ∧ (pts.all fun p => decide (p ∈ g.nodes)) = true := by
  unfold pointsInOrder at hp
  rw [mapM_some_iff] at hp
  have hlen : pts.length = g.nodes.length := by
    have := congrArg List.length hp; simpa using this.symm
  have hget : ∀ i (hi : i < pts.length), PyDict.get? d i = some pts[i] := by
    intro i hi
    have := congrArg (fun l => l[i]?) hp
    simp only [List.getElem?_map, List.getElem?_eq_getElem hi] at this
    rw [List.getElem?_range (by omega)] at this
    simpa using this
  refine ⟨⟨by simp [hlen], ?_⟩, ?_⟩
  · intro i hi
    simp only at hi
    have hi' : i < pts.length := by omega
    refine ⟨pts.map fun v => weight g pts[i] v, by simp [hi'], by simp [hlen], ?_⟩
    intro j hj
    simp only at hj
    have hj' : j < pts.length := by omega
    exact ⟨pts[i], pts[j], weight g pts[i] pts[j], ⟨d, hd, hget i hi'⟩, ⟨d, hd, hget j hj'⟩,
      by simp [hj'], isWeight_weight h _ _⟩
  · rw [List.all_eq_true]
    intro p hpm
    obtain ⟨i, hi, rfl⟩ := List.getElem_of_mem hpm
    rw [decide_eq_true_eq]
    have hc := coherent_of_inv h (by
      rcases h.idx with ⟨_, i2⟩ | ⟨ti, i1, _⟩
      · rw [hd] at i2; cases i2
      · rw [i1]; rfl)
    exact (hc.2.2.2 _).mpr ⟨i, (hc.2.2.1 _ _).mpr ⟨d, hd, hget i hi⟩⟩

/-- `adj_generator` on a state with indices and without a cached matrix. -/
theorem adjGenerator_indexed {g : EG} (h : Inv g) (ha : g.adjMat = none) {d : List (ℕ × Pt)}
    (hd : g.toPoints = some d) :
    (adjGenerator g = (.error .keyError, g) ∧ ¬ ∀ i < g.nodes.length, i ∈ PyDict.keys d) ∨
    ∃ a, adjGenerator g = (.ok a, { g with adjMat := some a }) ∧
      IsAdjacency { g with adjMat := some a } a := by
  unfold adjGenerator
  rw [ha, hd]
  simp only [hd, Option.getD_some]
  cases hp : pointsInOrder d g.nodes.length with
  | none =>
    left
    refine ⟨rfl, fun hc => ?_⟩
    have hex : ∀ i < g.nodes.length, ∃ p, PyDict.get? d i = some p := fun i hi =>
      Option.isSome_iff_exists.mp ((PyDict.get?_isSome_iff d i).mpr (hc i hi))
    choose! f hf using hex
    have : pointsInOrder d g.nodes.length = some ((List.range g.nodes.length).map f) := by
      unfold pointsInOrder
      rw [mapM_some_iff, List.map_map]
      apply List.map_congr_left
      intro i hi
      exact hf i (List.mem_range.mp hi)
    rw [hp] at this; cases this
  | some pts =>
    right
    obtain ⟨h1, h2⟩ := fresh_matrix h hd hp
    rw [hd] at h1
    refine ⟨_, ?_, h1⟩
    simp only [h2, if_true]

theorem adjGenerator_eq_of_index {g : EG} (hm : g.adjMat = none) (hi : g.toPoints = none) {t g'}
    (he : indexGenerator g = (.ok t, g')) {d} (hd : g'.toPoints = some d) (hm' : g'.adjMat = none) :
    adjGenerator g = adjGenerator g' := by
  unfold adjGenerator
  simp only [hm, hi, he, hd, hm']

/-! ### C15 -/

/-- **C15.** On a graph without macronodes `index_generator()` succeeds, leaves the graph alone,
and its result numbers the nodes bijectively by `0..N-1` in increasing lexicographic order;
`to_points` is the inverse dictionary; a second call returns the same and changes nothing. -/
theorem C15_index_generator {g : EG} (h : Fresh g) (hm : g.macronodes = false) :
    ∃ d g', indexGenerator g = (.ok d, g') ∧ g'.toIndices = some d ∧
      g'.nodes = g.nodes ∧ g'.edges = g.edges ∧
      (∀ p, p ∈ g.nodes ↔ ∃ i, HasIndex g' p i) ∧
      (∀ i, i < g.nodes.length ↔ ∃ p, HasIndex g' p i) ∧
      (∀ p i q j, HasIndex g' p i → HasIndex g' q j → (PtLt p q ↔ i < j)) ∧
      (∀ p i, HasIndex g' p i ↔ HasPoint g' i p) ∧
      indexGenerator g' = (.ok d, g') := by
  rcases indexGenerator_none h.inv h.no_indices with ⟨e, _, hc, _⟩ | ⟨l, hl, hs, _, he⟩
  · rw [hm] at hc; cases hc
  · have hinv := inv_indexGenerator h.inv
    rw [he] at hinv
    have hs := hs hm
    have hnd : l.Nodup := hl.nodup_iff.mpr h.nodes_nodup
    have hc := coherent_of_inv hinv rfl
    have hidx : ∀ p i, PyDict.get? (l.zip (List.range l.length)) p = some i ↔ l[i]? = some p := by
      intro p i
      rw [PyDict.get?_iff_mem (by rw [keys_zip]; exact hnd)]
      constructor
      · intro hm
        obtain ⟨k, hk, hkk⟩ := List.getElem_of_mem hm
        simp only [List.getElem_zip, List.getElem_range, Prod.mk.injEq] at hkk
        simp only [List.length_zip, List.length_range, Nat.min_self] at hk
        rw [← hkk.2, ← hkk.1, List.getElem?_eq_getElem hk]
      · intro hm
        obtain ⟨hk, hkk⟩ := List.getElem?_eq_some_iff.mp hm
        rw [List.mem_iff_getElem]
        refine ⟨i, by simpa using hk, ?_⟩
        simp [hkk]
    refine ⟨_, _, he, rfl, rfl, rfl, hc.2.2.2, ?_, ?_, hc.2.2.1, indexGenerator_some rfl⟩
    · intro i
      rw [← hl.length_eq]
      simp only [HasIndex, Option.some.injEq, exists_eq_left', hidx]
      constructor
      · intro hi; exact ⟨l[i], List.getElem?_eq_getElem hi⟩
      · rintro ⟨p, hp⟩
        exact (List.getElem?_eq_some_iff.mp hp).1
    · intro p i q j hp hq
      simp only [HasIndex, Option.some.injEq, exists_eq_left', hidx] at hp hq
      obtain ⟨hi, rfl⟩ := List.getElem?_eq_some_iff.mp hp
      obtain ⟨hj, rfl⟩ := List.getElem?_eq_some_iff.mp hq
      have hpw := sorted_pairwise g.nodes
      rw [← hs] at hpw
      have hlt : ∀ a b : Pt, ptLe a b = true → a ≠ b → PtLt a b := by
        intro a b h1 h2
        unfold ptLe at h1
        rw [decide_eq_true_eq] at h1
        rcases h1 with h1 | ⟨e1, h1 | ⟨e2, h1⟩⟩
        · exact Or.inl h1
        · exact Or.inr ⟨e1, Or.inl h1⟩
        · refine Or.inr ⟨e1, Or.inr ⟨e2, lt_of_le_of_ne h1 fun e3 => h2 (Prod.ext e1 (Prod.ext e2 e3))⟩⟩
      have hasym : ∀ a b : Pt, PtLt a b → ¬ ptLe b a = true := by
        intro a b h1 h2
        unfold ptLe at h2
        rw [decide_eq_true_eq] at h2
        rcases h1 with h1 | ⟨e1, h1 | ⟨e2, h1⟩⟩ <;> rcases h2 with h2 | ⟨f1, h2 | ⟨f2, h2⟩⟩ <;> linarith
      constructor
      · intro hpq
        by_contra hcon
        rcases Nat.lt_or_eq_of_le (not_lt.mp hcon) with hji | hji
        · exact hasym _ _ hpq (List.pairwise_iff_getElem.mp hpw j i hj hi hji)
        · subst hji
          exact hasym _ _ hpq ((by simpa using ptLe_total l[j] l[j]))
      · intro hij
        refine hlt _ _ (List.pairwise_iff_getElem.mp hpw i j hi hj hij) fun hc => ?_
        exact absurd ((hnd.getElem_inj_iff).mp hc) (by omega)

/-! ### C16 -/

/-- **C16.** On a graph without macronodes `adj_generator()` succeeds; entry `(i, j)` of the
matrix is the weight of the edge between `to_points[i]` and `to_points[j]`, and the matrix is
symmetric. -/
theorem C16_adj_generator {g : EG} (h : Fresh g) (hm : g.macronodes = false) :
    ∃ a g', adjGenerator g = (.ok a, g') ∧ g'.nodes = g.nodes ∧ g'.edges = g.edges ∧
      Coherent g' ∧ IsAdjacency g' a ∧
      (∀ (i j : ℕ) (ri rj : List ℤ), a[i]? = some ri → a[j]? = some rj → ri[j]? = rj[i]?) := by
  rcases indexGenerator_none h.inv h.no_indices with ⟨e, _, hc, _⟩ | ⟨l, hl, _, _, he⟩
  · rw [hm] at hc; cases hc
  · have hinv := inv_indexGenerator h.inv
    rw [he] at hinv
    rw [adjGenerator_eq_of_index h.no_matrix h.no_points he rfl h.no_matrix]
    rcases adjGenerator_indexed hinv h.no_matrix rfl with ⟨_, hc⟩ | ⟨a, ha, hadj⟩
    · exfalso
      apply hc
      intro i hi
      rw [keys_swp, values_zip, hl.length_eq]
      exact List.mem_range.mpr hi
    · refine ⟨a, _, ha, rfl, rfl, ?_, hadj, ?_⟩
      · have := coherent_of_inv hinv rfl; exact this
      · intro i j ri rj hi hj
        obtain ⟨h1, h2⟩ := hadj
        have hi' : i < g.nodes.length := by rw [← h1]; exact (List.getElem?_eq_some_iff.mp hi).1
        have hj' : j < g.nodes.length := by rw [← h1]; exact (List.getElem?_eq_some_iff.mp hj).1
        obtain ⟨ri', e1, _, k1⟩ := h2 i hi'
        obtain ⟨rj', e2, _, k2⟩ := h2 j hj'
        rw [hi] at e1; rw [hj] at e2
        cases e1; cases e2
        obtain ⟨p, q, w, p1, q1, r1, w1⟩ := k1 j hj'
        obtain ⟨q', p', w', q2, p2, r2, w2⟩ := k2 i hi'
        have fun1 : ∀ n x y, HasPoint { g with
            toIndices := some (l.zip (List.range l.length))
            toPoints := some ((l.zip (List.range l.length)).map swp)
            adjMat := some a } n x → HasPoint { g with
            toIndices := some (l.zip (List.range l.length))
            toPoints := some ((l.zip (List.range l.length)).map swp)
            adjMat := some a } n y → x = y := by
          rintro n x y ⟨d1, hd1, hx⟩ ⟨d2, hd2, hy⟩
          rw [hd1] at hd2; cases hd2
          rw [hx] at hy; exact (Option.some.inj hy)
        obtain rfl := fun1 i p p' p1 p2
        obtain rfl := fun1 j q q' q1 q2
        rw [r1, r2]
        congr 1
        have hu := hinv.uniq
        have wt : ∀ x y z, IsWeight g x y z → z = weight g x y := by
          intro x y z hz
          rcases hz with hz | ⟨rfl, hz⟩
          · exact (weight_of_mem hu hz).symm
          · exact (weight_of_not_mem hz).symm
        rw [wt p q w w1, wt q p w' w2, weight_comm]

/-! ### C17 -/

/-- **C17 (partial).** After any admissible history either no index dictionaries exist yet or
they are coherent (inverse to each other, covering exactly the nodes).  The unproved part is the
case excluded by `Admissible`, in which the claim is false (`C17_false`). -/
theorem C17_coherent_partial {g₀ g : EG} (h : Fresh g₀) (hr : Reach Admissible g₀ g) :
    (g.toIndices = none ∧ g.toPoints = none) ∨ Coherent g := by
  have hi := inv_reach h hr
  rcases hi.idx with hn | ⟨ti, i1, _⟩
  · exact Or.inl hn
  · exact Or.inr (coherent_of_inv hi (by rw [i1]; rfl))

/-- **C17 (partial), stability.** No admissible call changes the index of a qubit that stays. -/
theorem C17_index_stable_partial {g₀ g : EG} (h : Fresh g₀) (hr : Reach Admissible g₀ g) {op : Op}
    (ha : Admissible g op) {p : Pt} {i : ℕ} (hi : HasIndex g p i) (hp : p ∈ (step g op).2.nodes) :
    HasIndex (step g op).2 p i := by
  have hinv := inv_reach h hr
  obtain ⟨t, ht, hti⟩ := hi
  have hpts : ∃ d, g.toPoints = some d := by
    rcases hinv.idx with ⟨i1, _⟩ | ⟨_, _, i2, _⟩
    · rw [ht] at i1; cases i1
    · exact ⟨_, i2⟩
  have hkeep : ∀ k q, q ∉ g.nodes → PyDict.get? (t ++ [(q, k)]) p = some i := by
    intro k q hq
    have hqt : q ∉ PyDict.keys t := by
      rcases hinv.idx with ⟨i1, _⟩ | ⟨t', i1, _, i3, _⟩
      · rw [ht] at i1; cases i1
      · rw [ht] at i1; cases i1
        exact fun hc => hq (i3.subset hc)
    rw [PyDict.get?_append_single hqt]
    have : q ≠ p := by
      rintro rfl
      rw [(PyDict.get?_eq_none t q).mpr hqt] at hti; cases hti
    simp [this, hti]
  cases op with
  | addQubit q nb m =>
    rcases addQubit_spec hinv q nb m (nbsIn_of ha.1) (ha.2 ⟨q, nb, m, rfl⟩) with
      ⟨e, he⟩ | ⟨x, _, hx, _, _, _, _, _, _, hidx, _⟩
    · simp only [step, he]; exact ⟨t, ht, hti⟩
    · obtain ⟨k, _, _, hk⟩ := hidx t ht
      exact ⟨_, hk, hkeep k x hx⟩
  | removeQubit arg =>
    rcases removeQubit_spec hinv arg with ⟨e, he⟩ | ⟨x, ti, _, _, he, _, hti'⟩
    · simp only [step, he]; exact ⟨t, ht, hti⟩
    · simp only [step, he] at hp ⊢
      refine ⟨PyDict.pop t x, by simp only [hti', ht]; rfl, ?_⟩
      rw [PyDict.get?_pop]
      have : p ≠ x := by
        simp only [removeNode, List.mem_filter, decide_eq_true_eq] at hp
        exact hp.2
      simp [this, hti]
  | indexGenerator =>
    simp only [step, indexGenerator_some ht]
    exact ⟨t, ht, hti⟩
  | adjGenerator =>
    obtain ⟨d, hd⟩ := hpts
    cases hm : g.adjMat with
    | some a =>
      have : adjGenerator g = (.ok a, g) := by unfold adjGenerator; simp only [hm]
      simp only [step, this]; exact ⟨t, ht, hti⟩
    | none =>
      rcases adjGenerator_indexed hinv hm hd with ⟨he, _⟩ | ⟨a, he, _⟩
      · simp only [step, he]; exact ⟨t, ht, hti⟩
      · simp only [step, he]; exact ⟨t, ht, hti⟩

/-- **C17, effect of `add_qubit` on the graph.** With neighbour positions from the graph, an accepted call adds exactly
the new node; every old edge is kept with its weight; there are new edges, of weight 1, exactly to the neighbours `nbs` given,
either as positions or as the indices they have after the call; the new index is one more than the largest. -/
theorem C17_add_qubit_effect {g₀ g : EG} (h : Fresh g₀) (hr : Reach Admissible g₀ g)
    {q : QubitArg} {nb : Option Neighbors} {m : Bool} (ha : Admissible g (.addQubit q nb m))
    (hok : (addQubit g q nb m).1 = .ok ()) :
    ∃ p nbs, p ∉ g.nodes ∧ (∀ x y z, q = .tuple [x, y, z] → p = (x, y, z)) ∧
      (nb = none → nbs = []) ∧ (∀ l, nb = some (.tuples l) → nbs = l) ∧
      (∀ l, nb = some (.ints l) → nbs.length = l.length ∧ ∀ k (hk : k < l.length) (hk' : k < nbs.length),
        0 ≤ l[k] ∧ HasPoint (addQubit g q nb m).2 l[k].toNat nbs[k]) ∧
      (addQubit g q nb m).2.nodes = g.nodes ++ [p] ∧
      (∀ a b, (∃ w, (a, b, w) ∈ (addQubit g q nb m).2.edges ∨ (b, a, w) ∈ (addQubit g q nb m).2.edges) ↔
        (∃ w, (a, b, w) ∈ g.edges ∨ (b, a, w) ∈ g.edges) ∨ (a ∈ nbs ∧ b = p) ∨ (a = p ∧ b ∈ nbs)) ∧
      (∃ es, (addQubit g q nb m).2.edges = g.edges ++ es ∧ ∀ e ∈ es, e.1 ∈ nbs ∧ e.2 = (p, 1)) ∧
      (g.toIndices.isSome → ∃ k, HasIndex (addQubit g q nb m).2 p k ∧ (∀ x i, HasIndex g x i → i < k) ∧
        ∃ x, HasIndex g x (k - 1)) := by
  have hinv := inv_reach h hr
  have hnb := nbsIn_of ha.1
  have hne := ha.2 ⟨_, _, _, rfl⟩
  rcases addQubit_spec hinv q nb m hnb hne with ⟨e, he⟩ | ⟨p, hres, hp, hinv', hn, _, _, _, _, hidx, _⟩
  · rw [he] at hok; cases hok
  · obtain ⟨p', nbs, es, r1, r2, r3, r4, r5, r6, r7, r8⟩ := addQubit_edges hinv q nb m hnb hne hok
    rw [hres] at r1
    cases r1
    refine ⟨p, nbs, hp, ?_, r8, r7, ?_, hn, r5, ⟨es, r3, r4⟩, ?_⟩
    · rintro x y z rfl
      unfold resolveQubit at hres
      simp only at hres
      split_ifs at hres
      cases hres; rfl
    · intro l hl
      have := r6 l hl
      have hlen : nbs.length = l.length := by
        have := congrArg List.length this
        simpa using this.symm
      refine ⟨hlen, fun k hk hk' => ?_⟩
      have hk2 : (l.map fun i : ℤ => if 0 ≤ i then
          PyDict.get? ((addQubit g q nb m).2.toPoints.getD []) i.toNat else none)[k]? = (nbs.map some)[k]? := by rw [this]
      rw [List.getElem?_map, List.getElem?_map, List.getElem?_eq_getElem hk, List.getElem?_eq_getElem hk'] at hk2
      simp only [Option.map_some, Option.some.injEq] at hk2
      split_ifs at hk2 with h0
      refine ⟨h0, ?_⟩
      cases hd : (addQubit g q nb m).2.toPoints with
      | none => rw [hd] at hk2; simp [PyDict.get?_nil] at hk2
      | some d => rw [hd] at hk2; exact ⟨d, hd, hk2⟩
    · intro hs
      obtain ⟨t, ht⟩ := Option.isSome_iff_exists.1 hs
      obtain ⟨k, k1, k2, k3⟩ := hidx t ht
      have hpt : p ∉ PyDict.keys t := by
        rcases hinv.idx with ⟨i1, _⟩ | ⟨t', i1, _, i3, _⟩
        · rw [i1] at ht; cases ht
        · rw [i1] at ht; cases ht
          intro hc; exact hp (i3.subset hc)
      refine ⟨k, ⟨_, k3, ?_⟩, ?_, ?_⟩
      · have hnd : (PyDict.keys (t ++ [(p, k)])).Nodup := by
          rcases hinv'.idx with ⟨i1, _⟩ | ⟨t', i1, _, i3, _⟩
          · rw [i1] at k3; cases k3
          · rw [i1] at k3; cases k3
            exact i3.nodup_iff.2 hinv'.nd
        exact (PyDict.get?_iff_mem hnd _ _).2 (by simp)
      · rintro x i ⟨d, hd, hi⟩
        rw [ht] at hd; cases hd
        have := PyDict.get?_mem hi
        exact k1 i (List.mem_map_of_mem (f := (·.2)) this)
      · obtain ⟨⟨x, j⟩, hx, hj⟩ := List.mem_map.1 k2
        have hnd : (PyDict.keys t).Nodup := by
          rcases hinv.idx with ⟨i1, _⟩ | ⟨t', i1, _, i3, _⟩
          · rw [i1] at ht; cases ht
          · rw [i1] at ht; cases ht
            exact i3.nodup_iff.2 hinv.nd
        simp only at hj
        subst hj
        exact ⟨x, t, ht, (PyDict.get?_iff_mem hnd _ _).2 hx⟩

/-- **C17, effect of `remove_qubit` on the graph.** A position in the graph, or the index of one, is accepted: exactly that
node and the edges at it disappear.  Everything else is rejected with no change: an unknown position or index, any index when there are no indices, an
argument of another type. -/
theorem C17_remove_qubit_effect {g₀ g : EG} (h : Fresh g₀) (hr : Reach Admissible g₀ g) :
    (∀ p ∈ g.nodes, (removeQubit g (.tuple p)).1 = .ok () ∧
      (removeQubit g (.tuple p)).2.nodes = g.nodes.filter (fun q => decide (q ≠ p)) ∧
      (removeQubit g (.tuple p)).2.edges = g.edges.filter fun e => decide (e.1 ≠ p ∧ e.2.1 ≠ p)) ∧
    (∀ p, p ∉ g.nodes → ∃ e, removeQubit g (.tuple p) = (.error e, g)) ∧
    (∀ (i : ℕ) p, HasPoint g i p → removeQubit g (.int i) = removeQubit g (.tuple p)) ∧
    (∀ i : ℤ, (¬ ∃ p, 0 ≤ i ∧ HasPoint g i.toNat p) → ∃ e, removeQubit g (.int i) = (.error e, g)) ∧
    ∃ e, removeQubit g .other = (.error e, g) := by
  have hinv := inv_reach h hr
  have hacc : ∀ p ∈ g.nodes, ¬ ∃ e, removeQubit g (.tuple p) = (.error e, g) := by
    rintro p hp ⟨e, he⟩
    unfold removeQubit at he
    rcases hinv.idx with ⟨i1, i2⟩ | ⟨t, i1, i2, i3, i4⟩
    · simp only [i1, hp, if_true] at he; cases he
    · obtain ⟨v, hv⟩ := Option.isSome_iff_exists.mp ((PyDict.get?_isSome_iff t p).mpr (i3.mem_iff.mpr hp))
      simp only [i1, hp, if_true, hv] at he; cases he
  refine ⟨?_, ?_, ?_, ?_, ?_⟩
  · intro p hp
    rcases removeQubit_spec hinv (.tuple p) with he | ⟨p', ti, _, heq, he, _, _⟩
    · exact absurd he (hacc p hp)
    · have := heq p rfl
      subst this
      rw [he]
      exact ⟨rfl, rfl, rfl⟩
  · intro p hp
    rcases removeQubit_spec hinv (.tuple p) with he | ⟨p', ti, hp', heq, he, _, _⟩
    · exact he
    · exact absurd (heq p rfl ▸ hp') hp
  · rintro i p ⟨d, hd, hi⟩
    rcases hinv.idx with ⟨i1, i2⟩ | ⟨t, i1, i2, i3, i4⟩
    · rw [i2] at hd; cases hd
    · rw [hd] at i2
      unfold removeQubit
      simp only [i1, hd, Option.getD_some, Int.toNat_natCast, Int.natCast_nonneg, if_true, hi]
  · intro i hi
    rcases hinv.idx with ⟨i1, i2⟩ | ⟨t, i1, i2, i3, i4⟩
    · exact ⟨.valueError, by unfold removeQubit; simp only [i1]⟩
    · have : (if 0 ≤ i then PyDict.get? (g.toPoints.getD []) i.toNat else none) = none := by
        by_cases h0 : 0 ≤ i
        · rw [if_pos h0]
          cases hg : PyDict.get? (g.toPoints.getD []) i.toNat with
          | none => rfl
          | some p => exact absurd ⟨p, h0, _, i2, by rw [i2] at hg; exact hg⟩ hi
        · rw [if_neg h0]
      exact ⟨.keyError, by unfold removeQubit; simp only [i1, this]⟩
  · rcases hinv.idx with ⟨i1, i2⟩ | ⟨t, i1, i2, i3, i4⟩
    · exact ⟨.valueError, by unfold removeQubit; simp only [i1]⟩
    · exact ⟨.typeError, by unfold removeQubit; simp only [i1]⟩

/-- The empty `EGraph()`. -/
def emptyG : EG := { nodes := [], edges := [] }

/-- **C17 is false as stated**: on an `EGraph` whose indices were generated while it had no
qubits, `add_qubit((0, 0, 0))` raises ValueError (`max` of an empty dictionary) *after* adding
the node, which then has no index.  All neighbours given are in the graph (there are none). -/
theorem C17_false : ∃ g₀ g, Fresh g₀ ∧ Reach NeighborsExist g₀ g ∧ g.toIndices.isSome ∧
    ¬ Coherent g := by
  refine ⟨emptyG, run emptyG [.indexGenerator, .addQubit (.tuple [0, 0, 0]) none false], ?_, ?_, ?_, ?_⟩
  · refine ⟨by decide, by simp [emptyG], by simp [emptyG], rfl, rfl, rfl, by simp [emptyG]⟩
  · exact Reach.step (op := .addQubit (.tuple [0, 0, 0]) none false)
      (Reach.step (op := .indexGenerator) .refl trivial) trivial
  · simp [run, step, emptyG, indexGenerator, sorted, PyDict.ofPairs, addQubit, resolveQubit,
      addNode, updateAttributes, recordMicro, PyDict.keys]
  · intro hc
    have h1 := (hc.2.2.2 (0, 0, 0)).mp (by
      simp [run, step, emptyG, indexGenerator, sorted, PyDict.ofPairs, addQubit, resolveQubit,
        addNode, updateAttributes, recordMicro, PyDict.keys])
    obtain ⟨i, d, hd, hi⟩ := h1
    have hd' : some ([] : List (Pt × ℕ)) = some d := by
      rw [← hd]
      simp [run, step, emptyG, indexGenerator, sorted, PyDict.ofPairs, addQubit, resolveQubit,
        addNode, updateAttributes, recordMicro, PyDict.keys]
    cases hd'
    cases hi

/-! ### C18 -/

theorem adjacency_congr {g g' : EG} {a} (h : IsAdjacency g a) (hn : g'.nodes = g.nodes)
    (he : g'.edges = g.edges) (hp : g'.toPoints = g.toPoints) : IsAdjacency g' a := by
  unfold IsAdjacency IsWeight HasPoint at *
  rw [hn, he, hp]; exact h

/-- The cached matrix, if any, is right. -/
theorem cache_ok {g₀ g : EG} (h : Fresh g₀) (hr : Reach CleanAdmissible g₀ g) :
    ∀ a, g.adjMat = some a → IsAdjacency g a := by
  induction hr with
  | refl => intro a ha; rw [h.no_matrix] at ha; cases ha
  | @step g op hr ha ih =>
    have hinv := inv_reach h (hr.mono fun _ _ hx => hx.1)
    cases op with
    | addQubit q nb m =>
      rcases ha.2 ⟨q, nb, m, rfl⟩ with hok | heq
      · rcases addQubit_spec hinv q nb m (nbsIn_of ha.1.1) (ha.1.2 ⟨q, nb, m, rfl⟩) with
          ⟨e, he⟩ | ⟨x, _, _, _, _, _, _, _, hadj, _, _⟩
        · simp only [step, he] at hok; cases hok
        · intro a hx
          simp only [step] at hx hok
          rw [hadj hok] at hx; cases hx
      · rw [heq]; exact ih
    | removeQubit arg =>
      rcases removeQubit_spec hinv arg with ⟨e, he⟩ | ⟨x, ti, _, _, he, _, _⟩
      · simp only [step, he]; exact ih
      · simp only [step, he]; intro a hx; cases hx
    | indexGenerator =>
      cases hti : g.toIndices with
      | some t => simp only [step, indexGenerator_some hti]; exact ih
      | none =>
        rcases indexGenerator_none hinv hti with ⟨e, he, _⟩ | ⟨l, _, _, _, he⟩
        · simp only [step, he]; exact ih
        · simp only [step, he]
          intro a hx
          obtain ⟨h1, h2⟩ := ih a hx
          have htp : g.toPoints = none := by
            rcases hinv.idx with ⟨_, i2⟩ | ⟨t, i1, _⟩
            · exact i2
            · rw [hti] at i1; cases i1
          have h0 : ¬ 0 < g.nodes.length := by
            intro h0
            obtain ⟨row, _, _, hk⟩ := h2 0 h0
            obtain ⟨p, _, _, ⟨d, hd, _⟩, _⟩ := hk 0 h0
            rw [htp] at hd; cases hd
          refine ⟨h1, fun i hi => absurd hi ?_⟩
          simp only; omega
    | adjGenerator =>
      cases hm : g.adjMat with
      | some a =>
        have : adjGenerator g = (.ok a, g) := by unfold adjGenerator; simp only [hm]
        simp only [step, this]; rw [hm] at ih; rw [hm]; exact ih
      | none =>
        have main : ∀ g', Inv g' → g'.adjMat = none → g'.toPoints.isSome →
            ∀ a, (match adjGenerator g' with
              | (.ok _, g) => ((.ok () : Except PyErr Unit), g)
              | (.error e, g) => (.error e, g)).2.adjMat = some a →
            IsAdjacency (match adjGenerator g' with
              | (.ok _, g) => ((.ok () : Except PyErr Unit), g)
              | (.error e, g) => (.error e, g)).2 a := by
          intro g' hi hn hs a hx
          obtain ⟨d, hd⟩ := Option.isSome_iff_exists.mp hs
          rcases adjGenerator_indexed hi hn hd with ⟨he, _⟩ | ⟨a', he, hadj⟩
          · rw [he] at hx; simp only [hn] at hx; cases hx
          · rw [he] at hx ⊢; simp only [Option.some.injEq] at hx
            subst hx; exact hadj
        cases htp : g.toPoints with
        | some d => exact main g hinv hm (by rw [htp]; rfl)
        | none =>
          have hti : g.toIndices = none := by
            rcases hinv.idx with ⟨i1, _⟩ | ⟨t, _, i2, _⟩
            · exact i1
            · rw [htp] at i2; cases i2
          rcases indexGenerator_none hinv hti with ⟨e, he, _⟩ | ⟨l, _, _, _, he⟩
          · have : adjGenerator g = (.error e, g) := by
              unfold adjGenerator; simp only [hm, htp, he]
            simp only [step, this]; exact ih
          · have hi := inv_indexGenerator hinv
            rw [he] at hi
            simp only [step]
            rw [adjGenerator_eq_of_index hm htp he rfl hm]
            exact main _ hi hm rfl

/-- **C18 (partial).** After any history in which neighbours exist and rejected `add_qubit` calls
left the graph alone: whenever `adj_generator()` returns a matrix, it is the adjacency matrix of
the current graph; and on a graph with index dictionaries it returns one exactly when the indices
in use include all of `0..N-1`.  The full claim is false (`C18_false_remove`, `C18_false_stale`). -/
theorem C18_adjacency_partial {g₀ g : EG} (h : Fresh g₀) (hr : Reach CleanAdmissible g₀ g) :
    (∀ a, (adjGenerator g).1 = .ok a → IsAdjacency (adjGenerator g).2 a ∧
      (adjGenerator g).2.nodes = g.nodes ∧ (adjGenerator g).2.edges = g.edges) ∧
    (g.toIndices.isSome → ((∃ a, (adjGenerator g).1 = .ok a) ↔
      ∀ i < g.nodes.length, ∃ p, HasIndex g p i)) := by
  have hinv := inv_reach h (hr.mono fun _ _ hx => hx.1)
  have hcache := cache_ok h hr
  cases hm : g.adjMat with
  | some a =>
    have he : adjGenerator g = (.ok a, g) := by unfold adjGenerator; simp only [hm]
    rw [he]
    refine ⟨fun a' ha' => by cases ha'; exact ⟨hcache a hm, rfl, rfl⟩, fun hs => ⟨fun _ i hi => ?_, fun _ => ⟨a, rfl⟩⟩⟩
    obtain ⟨row, _, _, hk⟩ := (hcache a hm).2 i hi
    obtain ⟨p, _, _, hp, _⟩ := hk i hi
    exact ⟨p, ((coherent_of_inv hinv hs).2.2.1 p i).mpr hp⟩
  | none =>
    cases htp : g.toPoints with
    | some d =>
      have hs : g.toIndices.isSome := by
        rcases hinv.idx with ⟨_, i2⟩ | ⟨t, i1, _⟩
        · rw [htp] at i2; cases i2
        · rw [i1]; rfl
      have hco := coherent_of_inv hinv hs
      rcases adjGenerator_indexed hinv hm htp with ⟨he, hno⟩ | ⟨a, he, hadj⟩
      · rw [he]
        refine ⟨fun a ha => by (cases ha), fun _ => ⟨fun ⟨a, ha⟩ => by (cases ha), fun hall => absurd ?_ hno⟩⟩
        intro i hi
        obtain ⟨p, hp⟩ := hall i hi
        obtain ⟨d', hd', hg⟩ := (hco.2.2.1 p i).mp hp
        rw [htp] at hd'; cases hd'
        rw [← PyDict.get?_isSome_iff, hg]; rfl
      · rw [he]
        refine ⟨fun a' ha' => by cases ha'; exact ⟨hadj, rfl, rfl⟩, fun _ => ⟨fun _ i hi => ?_, fun _ => ⟨a, rfl⟩⟩⟩
        obtain ⟨row, _, _, hk⟩ := hadj.2 i hi
        obtain ⟨p, _, _, hp, _⟩ := hk i hi
        exact ⟨p, (hco.2.2.1 p i).mpr hp⟩
    | none =>
      have hti : g.toIndices = none := by
        rcases hinv.idx with ⟨i1, _⟩ | ⟨t, _, i2, _⟩
        · exact i1
        · rw [htp] at i2; cases i2
      refine ⟨?_, by rw [hti]; simp⟩
      rcases indexGenerator_none hinv hti with ⟨e, he, _⟩ | ⟨l, _, _, _, he⟩
      · have : adjGenerator g = (.error e, g) := by
          unfold adjGenerator; simp only [hm, htp, he]
        rw [this]; intro a ha; cases ha
      · have hi := inv_indexGenerator hinv
        rw [he] at hi
        rw [adjGenerator_eq_of_index hm htp he rfl hm]
        rcases adjGenerator_indexed hi hm rfl with ⟨he', _⟩ | ⟨a, he', hadj⟩
        · rw [he']; intro a ha; cases ha
        · rw [he']; intro a' ha'; cases ha'; exact ⟨hadj, rfl, rfl⟩

/-- A one-qubit graph. -/
def oneG : EG := { nodes := [(0, 0, 0)], edges := [] }

theorem fresh_oneG : Fresh oneG :=
  ⟨by decide, by simp [oneG], by simp [oneG], rfl, rfl, rfl, by simp [oneG]⟩

/-- The history behind `C18_false_remove`: index, add a second qubit, remove the first one. -/
def removeHistory : List Op :=
  [.indexGenerator, .addQubit (.tuple [1, 0, 0]) (some (.tuples [(0, 0, 0)])) false,
    .removeQubit (.tuple (0, 0, 0))]

theorem run_removeHistory : run oneG removeHistory =
    { nodes := [(1, 0, 0)], edges := [], toIndices := some [((1, 0, 0), 1)],
      toPoints := some [(1, (1, 0, 0))] } := by
  have h1 : (step oneG .indexGenerator).2 =
      (⟨[(0, 0, 0)], [], false, none, some [((0, 0, 0), 0)], some [(0, (0, 0, 0))], none⟩ : EG) := by
    simp [step, oneG, indexGenerator, sorted, PyDict.ofPairs, PyDict.set, List.range_succ]
  unfold run removeHistory
  rw [List.foldl_cons, h1]
  decide +kernel

/-- **C18 is false as stated (1)**: after removing a qubit that does not carry the last index,
`adj_generator()` raises KeyError, in a history where every call succeeded. -/
theorem C18_false_remove : ∃ g₀ g, Fresh g₀ ∧ Reach CleanAdmissible g₀ g ∧
    (adjGenerator g).1 = .error .keyError := by
  refine ⟨oneG, run oneG removeHistory, fresh_oneG, ?_, by rw [run_removeHistory]; decide +kernel⟩
  have h1 : (step oneG .indexGenerator).2 =
      (⟨[(0, 0, 0)], [], false, none, some [((0, 0, 0), 0)], some [(0, (0, 0, 0))], none⟩ : EG) := by
    simp [step, oneG, indexGenerator, sorted, PyDict.ofPairs, PyDict.set, List.range_succ]
  have r1 : Reach CleanAdmissible oneG (step oneG .indexGenerator).2 :=
    .step .refl ⟨⟨trivial, by simp⟩, by simp⟩
  have r2 := Reach.step (op := .addQubit (.tuple [1, 0, 0]) (some (.tuples [(0, 0, 0)])) false) r1
    ⟨⟨by rw [h1]; simp [NeighborsExist], fun _ => Or.inr (by rw [h1]; simp)⟩, fun _ => Or.inl (by
      rw [h1]; decide +kernel)⟩
  exact Reach.step (op := .removeQubit (.tuple (0, 0, 0))) r2 ⟨⟨trivial, by simp⟩, by simp⟩

/-- **C18 is false as stated (2)**: a rejected `add_qubit` (neighbours of a wrong type) leaves the
new node in the graph but keeps the cached matrix, so `adj_generator()` returns a stale matrix. -/
theorem C18_false_stale : ∃ g₀ g, Fresh g₀ ∧ Reach Admissible g₀ g ∧
    ∃ a, (adjGenerator g).1 = .ok a ∧ ¬ IsAdjacency (adjGenerator g).2 a := by
  have h1 : (step oneG .adjGenerator).2 =
      (⟨[(0, 0, 0)], [], false, none, some [((0, 0, 0), 0)], some [(0, (0, 0, 0))],
        some [[0]]⟩ : EG) := by
    simp [step, oneG, adjGenerator, indexGenerator, sorted, PyDict.ofPairs, PyDict.set,
      List.range_succ, pointsInOrder, PyDict.get?, weight]
  have h2 : (step (step oneG .adjGenerator).2 (.addQubit (.tuple [1, 0, 0]) (some .badType) false)).2 =
      (⟨[(0, 0, 0), (1, 0, 0)], [], false, none, some [((0, 0, 0), 0), ((1, 0, 0), 1)],
        some [(0, (0, 0, 0)), (1, (1, 0, 0))], some [[0]]⟩ : EG) := by
    rw [h1]; decide +kernel
  refine ⟨oneG, _, fresh_oneG, Reach.step (op := .addQubit (.tuple [1, 0, 0]) (some .badType) false)
    (Reach.step (op := .adjGenerator) .refl ⟨trivial, by simp⟩)
    ⟨trivial, fun _ => Or.inr (by rw [h1]; simp)⟩, [[0]], ?_, ?_⟩
  · rw [h2]; rfl
  · rw [h2]
    intro hc
    exact absurd hc.1 (by simp [adjGenerator])

/-! ### C19 -/

/-- **C19.** On any reachable non-empty graph `add_qubit()` succeeds; it adds exactly one node, whose
x-coordinate is one more than the largest and whose other coordinates are 0, and no edge; removing
that qubit afterwards succeeds and restores nodes, edges and all dictionaries. -/
theorem C19_default_position {g₀ g : EG} (h : Fresh g₀) (hr : Reach Admissible g₀ g)
    (hne : g.nodes ≠ []) :
    ∃ x, (∃ p ∈ g.nodes, p.1 = x) ∧ (∀ p ∈ g.nodes, p.1 ≤ x) ∧ (x + 1, 0, 0) ∉ g.nodes ∧
      ∃ g', addQubit g .none none false = (.ok (), g') ∧ g'.nodes = g.nodes ++ [(x + 1, 0, 0)] ∧
        g'.edges = g.edges ∧ g'.macroToMicro = g.macroToMicro ∧
        ∃ g'', removeQubit g' (.tuple (x + 1, 0, 0)) = (.ok (), g'') ∧
          g''.nodes = g.nodes ∧ g''.edges = g.edges ∧ g''.toIndices = g.toIndices ∧
          g''.toPoints = g.toPoints ∧ g''.macroToMicro = g.macroToMicro := by
  have hinv := inv_reach h hr
  obtain ⟨x, hx⟩ : ∃ x, xMax g = some x := by
    cases hv : xMax g with
    | some x => exact ⟨x, rfl⟩
    | none =>
      unfold xMax at hv
      rw [List.max?_eq_none_iff, List.map_eq_nil_iff] at hv; exact absurd hv hne
  have hx' := hx
  unfold xMax at hx'
  have hmax := List.max?_eq_some_iff.mp hx'
  have hres : resolveQubit g .none = .ok (x + 1, 0, 0) := by unfold resolveQubit; simp only [hx]
  have hfresh := resolveQubit_fresh hres
  obtain ⟨ti, md, u1, u2, u3, u4, u5, _⟩ := updateAttributes_spec hinv hfresh (Or.inr hne) false (by simp)
  have hadd : addQubit g .none none false = (.ok (), { g with
      nodes := g.nodes ++ [(x + 1, 0, 0)], toIndices := ti, toPoints := ti.map fun t => t.map swp
      macroToMicro := md, adjMat := none }) := by
    unfold addQubit
    simp only [hres, Bool.false_and, Bool.false_eq_true, if_false, u1, addNeighbors]
  have hmd := u5 rfl
  refine ⟨x, ?_, fun p hp => hmax.2 _ (List.mem_map_of_mem (f := (·.1)) hp), hfresh, _, hadd, rfl, rfl,
    hmd, ?_⟩
  · obtain ⟨p, hp, hpx⟩ := List.mem_map.mp hmax.1
    exact ⟨p, hp, hpx⟩
  · have hinv' : Inv { g with
        nodes := g.nodes ++ [(x + 1, 0, 0)], toIndices := ti, toPoints := ti.map fun t => t.map swp
        macroToMicro := md, adjMat := none } := ⟨u2.nd, u2.ends, u2.uniq, u2.idx, u2.mac⟩
    have hfn : (g.nodes ++ [(x + 1, 0, 0)]).filter (fun q => decide (q ≠ (x + 1, 0, 0))) = g.nodes := by
      rw [List.filter_append]
      have : g.nodes.filter (fun q => decide (q ≠ (x + 1, 0, 0))) = g.nodes := by
        rw [List.filter_eq_self]
        intro a ha
        simp only [ne_eq, decide_not, Bool.not_eq_true', decide_eq_false_iff_not]
        rintro rfl; exact hfresh ha
      rw [this]; simp
    have hfe : g.edges.filter (fun e => decide (e.1 ≠ (x + 1, 0, 0) ∧ e.2.1 ≠ (x + 1, 0, 0))) = g.edges := by
      rw [List.filter_eq_self]
      intro e he
      rw [decide_eq_true_eq]
      have := hinv.ends e he
      exact ⟨fun hc => hfresh (hc ▸ this.1), fun hc => hfresh (hc ▸ this.2)⟩
    have hmr : ∀ m, g.macroToMicro = some m → macroRemove m (x + 1, 0, 0) = m := by
      intro m hm
      have hnot : ∀ e ∈ m, (x + 1, (0 : ℚ), (0 : ℚ)) ∉ e.2 := fun e he hc =>
        hfresh ((hinv.mac m hm).2.2 _ (List.mem_flatMap.mpr ⟨e, he, hc⟩))
      unfold macroRemove
      have : m.filterMap (fun e => some e) = m := List.filterMap_some
      conv_rhs => rw [← this]
      apply List.filterMap_congr
      intro e he
      simp [hnot e he]
    rcases removeQubit_spec hinv' (.tuple (x + 1, 0, 0)) with ⟨e, he⟩ | ⟨p, ti', hp, hpq, he, _, hti'⟩
    · exfalso
      rcases hinv'.idx with ⟨i1, i2⟩ | ⟨t, i1, i2, i3, i4⟩
      · unfold removeQubit at he
        simp only at i1
        simp [i1] at he
      · unfold removeQubit at he
        simp only at i1 i3
        have hk : (x + 1, (0 : ℚ), (0 : ℚ)) ∈ PyDict.keys t := i3.mem_iff.mpr (by simp)
        obtain ⟨v, hv⟩ := Option.isSome_iff_exists.mp ((PyDict.get?_isSome_iff t _).mpr hk)
        simp [i1, hv] at he
    · obtain rfl := hpq _ rfl
      have hti2 : ti' = g.toIndices := by
        rw [hti']
        simp only
        cases hgt : g.toIndices with
        | none => rw [u3 hgt]; rfl
        | some t =>
          obtain ⟨k, _, _, hk⟩ := u4 t hgt
          rw [hk]
          simp only [Option.map_some]
          congr 1
          unfold PyDict.pop
          rw [List.filter_append]
          have h1 : t.filter (fun e => decide (e.1 ≠ (x + 1, (0 : ℚ), (0 : ℚ)))) = t := by
            rw [List.filter_eq_self]
            intro e he
            rw [decide_eq_true_eq]
            intro hc
            rcases hinv.idx with ⟨i1, _⟩ | ⟨t', i1, _, i3, _⟩
            · rw [hgt] at i1; cases i1
            · rw [hgt] at i1; cases i1
              exact hfresh (i3.subset (hc ▸ List.mem_map_of_mem (f := (·.1)) he))
          rw [h1]; simp
      refine ⟨_, he, hfn, hfe, hti2, ?_, ?_⟩
      · simp only [hti2]
        rcases hinv.idx with ⟨i1, i2⟩ | ⟨t', i1, i2, _, _⟩
        · rw [i1, i2]; rfl
        · rw [i1, i2]; rfl
      · simp only [hmd]
        cases hgm : g.macroToMicro with
        | none => rfl
        | some m => simp [hmr m hgm]

/-- **C19, rejections.** An occupied position, a tuple that is not of length 3, or an argument that
is not a tuple is rejected and changes nothing at all (whatever the graph). -/
theorem C19_rejections (g : EG) (nb : Option Neighbors) (m : Bool) :
    (∀ x y z, (x, y, z) ∈ g.nodes → addQubit g (.tuple [x, y, z]) nb m = (.error .valueError, g)) ∧
    (∀ c, c.length ≠ 3 → addQubit g (.tuple c) nb m = (.error .valueError, g)) ∧
    addQubit g .other nb m = (.error .typeError, g) := by
  refine ⟨?_, ?_, rfl⟩
  · intro x y z hm
    simp [addQubit, resolveQubit, hm]
  · intro c hc
    have : resolveQubit g (.tuple c) = .error .valueError := by
      unfold resolveQubit
      split
      · rename_i heq; cases heq; simp at hc
      · rfl
      · rename_i heq; cases heq
      · rename_i heq; cases heq
    simp [addQubit, this]

/-! ### C21 -/

/-- **C21.** Start from a macronized graph (every qubit in exactly one macronode list, no empty
list).  After any history of `add_qubit(..., add_to_macronode=True)`, `remove_qubit`,
`index_generator` and `adj_generator` calls, the lists in `macro_to_micro` still partition the
qubits of the graph, under distinct keys, and none is empty. -/
theorem C21_macro_partition {g₀ g : EG} {md₀} (h : Fresh g₀) (h0 : g₀.macroToMicro = some md₀)
    (hp : (md₀.flatMap (·.2)).Perm g₀.nodes) (hne : ∀ e ∈ md₀, e.2 ≠ [])
    (hr : Reach MacroAdmissible g₀ g) :
    ∃ md, g.macroToMicro = some md ∧ (md.map (·.1)).Nodup ∧ (md.flatMap (·.2)).Perm g.nodes ∧
      ∀ e ∈ md, e.2 ≠ [] := by
  induction hr with
  | refl => exact ⟨md₀, h0, (h.micro md₀ h0).1, hp, hne⟩
  | @step g op hr ha ih =>
    obtain ⟨md, h1, h2, h3, h4⟩ := ih
    have hinv := inv_reach h (hr.mono fun _ _ hx => hx.1)
    have same : ∀ g' : EG, g'.macroToMicro = g.macroToMicro → g'.nodes = g.nodes →
        ∃ md, g'.macroToMicro = some md ∧ (md.map (·.1)).Nodup ∧
          (md.flatMap (·.2)).Perm g'.nodes ∧ ∀ e ∈ md, e.2 ≠ [] := by
      intro g' e1 e2
      exact ⟨md, e1.trans h1, h2, by rw [e2]; exact h3, h4⟩
    cases op with
    | addQubit q nb m =>
      have hm := ha.2 q nb m rfl
      rcases addQubit_spec hinv q nb m (nbsIn_of ha.1.1) (ha.1.2 ⟨q, nb, m, rfl⟩) with
        ⟨e, he⟩ | ⟨p, _, _, _, hn, _, _, hmac, _⟩
      · simp only [step, he]; exact same g rfl rfl
      · obtain ⟨d, hd1, hd2⟩ := hmac hm
        rw [h1] at hd1; cases hd1
        obtain ⟨s1, s2, s3⟩ := macroAdd_spec h2 p
        refine ⟨_, hd2, s1, ?_, s3 h4⟩
        simp only [step, hn]
        exact s2.trans ((h3.cons p).trans (List.perm_append_singleton p g.nodes).symm)
    | removeQubit arg =>
      rcases removeQubit_spec hinv arg with ⟨e, he⟩ | ⟨p, ti, _, _, he, _, _⟩
      · simp only [step, he]; exact same g rfl rfl
      · simp only [step, he]
        obtain ⟨s1, s2, s3⟩ := macroRemove_spec h2 (hinv.mac md h1).2.1 p
        refine ⟨_, by simp only [h1]; rfl, s1, ?_, s3 h4⟩
        change (flat (macroRemove md p)).Perm _
        rw [s2]
        exact h3.filter _
    | indexGenerator =>
      cases hti : g.toIndices with
      | some t => simp only [step, indexGenerator_some hti]; exact same g rfl rfl
      | none =>
        rcases indexGenerator_none hinv hti with ⟨e, he, _⟩ | ⟨l, _, _, _, he⟩
        · simp only [step, he]; exact same g rfl rfl
        · simp only [step, he]; exact same _ rfl rfl
    | adjGenerator =>
      have main : ∀ g', (adjGenerator g').2.macroToMicro = g'.macroToMicro ∧
          (adjGenerator g').2.nodes = g'.nodes := by
        intro g'
        have hidx : (indexGenerator g').2.macroToMicro = g'.macroToMicro ∧
            (indexGenerator g').2.nodes = g'.nodes := by
          unfold indexGenerator
          cases g'.toIndices with
          | some _ => exact ⟨rfl, rfl⟩
          | none =>
            dsimp only
            split_ifs
            · cases hgm : g'.macroToMicro with
              | none => exact ⟨hgm, rfl⟩
              | some md => dsimp only; split_ifs <;> first | exact ⟨rfl, rfl⟩ | exact ⟨hgm, rfl⟩
            · exact ⟨rfl, rfl⟩
        unfold adjGenerator
        cases g'.adjMat with
        | some a => exact ⟨rfl, rfl⟩
        | none =>
          dsimp only
          have rest : ∀ g2 : EG, g2.macroToMicro = g'.macroToMicro → g2.nodes = g'.nodes →
              ((match pointsInOrder (g2.toPoints.getD []) g2.nodes.length with
                | none => ((.error .keyError : Except PyErr (List (List ℤ))), g2)
                | some pts =>
                  if pts.all fun p => decide (p ∈ g2.nodes) then
                    let a := pts.map fun u => pts.map fun v => weight g2 u v
                    (.ok a, { g2 with adjMat := some a })
                  else (.error .networkXError, g2)).2.macroToMicro = g'.macroToMicro ∧
              (match pointsInOrder (g2.toPoints.getD []) g2.nodes.length with
                | none => ((.error .keyError : Except PyErr (List (List ℤ))), g2)
                | some pts =>
                  if pts.all fun p => decide (p ∈ g2.nodes) then
                    let a := pts.map fun u => pts.map fun v => weight g2 u v
                    (.ok a, { g2 with adjMat := some a })
                  else (.error .networkXError, g2)).2.nodes = g'.nodes) := by
            intro g2 e1 e2
            split
            · exact ⟨e1, e2⟩
            · dsimp only; split_ifs <;> exact ⟨e1, e2⟩
          cases g'.toPoints with
          | some d => exact rest g' rfl rfl
          | none =>
            dsimp only
            generalize indexGenerator g' = r at hidx
            obtain ⟨r1, r2⟩ := r
            cases r1 with
            | error e => exact hidx
            | ok d => exact rest r2 hidx.1 hidx.2
      have := main g
      simp only [step]
      split <;> (rename_i hx; rw [hx] at this; exact same _ this.1 this.2)

/-! ### Non-vacuity -/

/-- `k` is the integer point nearest to `p` in every coordinate. -/
def NearestTo (k p : Pt) : Prop := (∃ a b c : ℤ, k = ((a : ℚ), (b : ℚ), (c : ℚ))) ∧ |p.1 - k.1| ≤ 1 / 2 ∧ |p.2.1 - k.2.1| ≤ 1 / 2 ∧
  |p.2.2 - k.2.2| ≤ 1 / 2

theorem indexGenerator_macro (g : EG) : (indexGenerator g).2.macroToMicro = g.macroToMicro := by
  unfold indexGenerator
  dsimp only
  split
  · rfl
  · split_ifs
    · split
      · rfl
      · split_ifs <;> rfl
    · rfl

theorem adjGenerator_macro (g : EG) : (adjGenerator g).2.macroToMicro = g.macroToMicro := by
  have hix := indexGenerator_macro g
  unfold adjGenerator
  dsimp only
  split
  · rfl
  · have : ∀ r : Except PyErr Unit × EG, r.2.macroToMicro = g.macroToMicro →
        (match r with
          | (.error e, g) => ((.error e : Except PyErr (List (List ℤ))), g)
          | (.ok _, g) =>
            match pointsInOrder (g.toPoints.getD []) g.nodes.length with
            | none => (.error .keyError, g)
            | some pts =>
              if pts.all fun p => decide (p ∈ g.nodes) then
                (.ok (pts.map fun u => pts.map fun v => weight g u v), { g with adjMat := some (pts.map fun u => pts.map fun v => weight g u v) })
              else (.error .networkXError, g)).2.macroToMicro = g.macroToMicro := by
      rintro ⟨r1, r2⟩ hr
      cases r1 with
      | error e => exact hr
      | ok _ =>
        dsimp only
        split
        · exact hr
        · split_ifs <;> exact hr
    apply this
    split
    · rfl
    · generalize indexGenerator g = r at hix
      obtain ⟨r1, r2⟩ := r
      cases r1 <;> exact hix

theorem pyRound_near (x : ℚ) : |x - pyRound x| ≤ 1 / 2 := by
  have h1 := Int.floor_le x
  have h2 := Int.lt_floor_add_one x
  unfold pyRound
  simp only
  split_ifs <;> rw [abs_le] <;> push_cast <;> constructor <;> linarith

/-- **C21, the right macronode.** If every micronode is listed under an integer point nearest to it, this stays so. -/
theorem C21_macro_nearest {g₀ g : EG} {md₀} (h : Fresh g₀) (h0 : g₀.macroToMicro = some md₀)
    (hnear : ∀ e ∈ md₀, ∀ p ∈ e.2, NearestTo e.1 p) (hr : Reach MacroAdmissible g₀ g) :
    ∃ md, g.macroToMicro = some md ∧ ∀ e ∈ md, ∀ p ∈ e.2, NearestTo e.1 p := by
  induction hr with
  | refl => exact ⟨md₀, h0, hnear⟩
  | @step g op hr ha ih =>
    obtain ⟨md, h1, h2⟩ := ih
    have hinv := inv_reach h (hr.mono fun _ _ hx => hx.1)
    cases op with
    | addQubit q nb m =>
      have hm := ha.2 q nb m rfl
      rcases addQubit_spec hinv q nb m (nbsIn_of ha.1.1) (ha.1.2 ⟨q, nb, m, rfl⟩) with
        ⟨e, he⟩ | ⟨p, _, _, _, hn, _, _, hmac, _⟩
      · simp only [step, he]; exact ⟨md, h1, h2⟩
      · obtain ⟨d, hd1, hd2⟩ := hmac hm
        rw [h1] at hd1; cases hd1
        refine ⟨_, hd2, ?_⟩
        have hp : NearestTo (roundPt p) p :=
          ⟨⟨_, _, _, rfl⟩, pyRound_near _, pyRound_near _, pyRound_near _⟩
        unfold macroAdd
        cases hg : PyDict.get? md (roundPt p) with
        | some l =>
          have hk : roundPt p ∈ PyDict.keys md := by rw [← PyDict.get?_isSome_iff, hg]; rfl
          have hl := h2 _ (PyDict.get?_mem hg)
          intro e he x hx
          simp only [PyDict.set_of_mem _ hk] at he
          obtain ⟨e', he', rfl⟩ := List.mem_map.mp he
          split_ifs at hx ⊢
          · rcases List.mem_append.1 hx with hx | hx
            · exact hl x hx
            · rw [List.mem_singleton] at hx; subst hx; exact hp
          · exact h2 e' he' x hx
        | none =>
          have hk := (PyDict.get?_eq_none md _).mp hg
          intro e he x hx
          simp only [PyDict.set_of_not_mem _ hk] at he
          rcases List.mem_append.1 he with he | he
          · exact h2 e he x hx
          · rw [List.mem_singleton] at he; subst he
            simp only [List.mem_singleton] at hx; subst hx; exact hp
    | removeQubit arg =>
      rcases removeQubit_spec hinv arg with ⟨e, he⟩ | ⟨p, ti, _, _, he, _, _⟩
      · simp only [step, he]; exact ⟨md, h1, h2⟩
      · simp only [step, he]
        refine ⟨_, by simp only [h1]; rfl, ?_⟩
        intro e he x hx
        unfold macroRemove at he
        obtain ⟨e', he', heq⟩ := List.mem_filterMap.mp he
        dsimp only at heq
        split_ifs at heq with c1 c2
        · cases heq; exact h2 e' he' x (List.mem_of_mem_erase hx)
        · cases heq; exact h2 _ he' x hx
    | indexGenerator =>
      cases hti : g.toIndices with
      | some t => simp only [step, indexGenerator_some hti]; exact ⟨md, h1, h2⟩
      | none =>
        rcases indexGenerator_none hinv hti with ⟨e, he, _⟩ | ⟨l, _, _, _, he⟩ <;>
          (simp only [step, he]; exact ⟨md, h1, h2⟩)
    | adjGenerator =>
      have : (step g .adjGenerator).2.macroToMicro = g.macroToMicro := by
        have : (step g .adjGenerator).2 = (adjGenerator g).2 := by
          simp only [step]; split <;> rename_i hx <;> rw [hx]
        rw [this, adjGenerator_macro]
      exact ⟨md, this.trans h1, h2⟩

/-- A triangle-free example: the path 0 - 1 - 2 with one edge weight -1. -/
def pathG : EG :=
  { nodes := [(2, 0, 0), (0, 0, 0), (1, 0, 0)]
    edges := [((0, 0, 0), (1, 0, 0), 1), ((2, 0, 0), (1, 0, 0), -1)] }

example : Fresh pathG :=
  ⟨by decide +kernel, by decide +kernel, by decide +kernel, rfl, rfl, rfl, by simp [pathG]⟩

example : pathG.nodes ≠ [] ∧ pathG.macronodes = false := ⟨by decide, rfl⟩

/-- A macronized edge (two macronodes with one micronode each). -/
def dumbbellG : EG :=
  { nodes := [(1/10, 0, 0), (9/10, 0, 0)], edges := [((1/10, 0, 0), (9/10, 0, 0), 1)]
    macronodes := true
    macroToMicro := some [((0, 0, 0), [(1/10, 0, 0)]), ((1, 0, 0), [(9/10, 0, 0)])] }

example : Fresh dumbbellG ∧ MacroAdmissible dumbbellG (.addQubit (.tuple [0, 1/10, 0]) none true) ∧
    (addQubit dumbbellG (.tuple [0, 1/10, 0]) none true).2.macroToMicro =
      some [((0, 0, 0), [(1/10, 0, 0), (0, 1/10, 0)]), ((1, 0, 0), [(9/10, 0, 0)])] := by
  refine ⟨⟨by decide +kernel, by decide +kernel, by decide +kernel, rfl, rfl, rfl, ?_⟩, ?_, by decide +kernel⟩
  · intro md hmd
    cases hmd
    decide +kernel
  · exact ⟨⟨trivial, fun _ => Or.inl rfl⟩, by rintro q nb m h; cases h; rfl⟩

-- C21_macro_nearest: the micronodes of the dumbbell are listed under the nearest integer points
example : ∀ e ∈ [(((0, 0, 0) : Pt), [((1/10, 0, 0) : Pt)]), ((1, 0, 0), [(9/10, 0, 0)])], ∀ p ∈ e.2, NearestTo e.1 p := by
  intro e he p hp
  simp only [List.mem_cons, List.not_mem_nil, or_false] at he
  rcases he with rfl | rfl <;> simp only [List.mem_singleton] at hp <;> subst hp
  · refine ⟨⟨0, 0, 0, by simp⟩, ?_, ?_, ?_⟩ <;> norm_num [abs_le]
  · refine ⟨⟨1, 0, 0, by simp⟩, ?_, ?_, ?_⟩ <;> norm_num [abs_le]

-- C17: adding a qubit next to the qubit with index 0, then removing that one by its index
example : (addQubit (run oneG [.indexGenerator]) (.tuple [1, 0, 0]) (some (.ints [0])) false).2.edges =
      [((0, 0, 0), (1, 0, 0), 1)] ∧
    (removeQubit (addQubit (run oneG [.indexGenerator]) (.tuple [1, 0, 0]) (some (.ints [0])) false).2 (.int 0)).2.nodes =
      [(1, 0, 0)] := by
  decide +kernel

end Flamingpy.EGraph
