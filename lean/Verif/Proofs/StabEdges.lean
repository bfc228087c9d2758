import Verif.Proofs.StabGraph
import Mathlib.Data.List.GetD

/-! # Edges of the stabilizer graph act as qubits; connectedness -/

namespace Flamingpy.SurfaceCode

open Flamingpy

/-! ### Stabilizers containing a qubit -/

/-- Indices of the stabilizers containing `x`. -/
def stabsOf (S : List (List V)) (x : V) : Finset ℕ := (Finset.range S.length).filter fun k => x ∈ S.getD k []

theorem mem_stabsOf {S : List (List V)} {x : V} {k : ℕ} : k ∈ stabsOf S x ↔ k < S.length ∧ x ∈ S.getD k [] := by
  unfold stabsOf; rw [Finset.mem_filter, Finset.mem_range]

theorem mem_stabsOf' {S : List (List V)} {x : V} {k : ℕ} : k ∈ stabsOf S x ↔ x ∈ S.getD k [] := by
  rw [mem_stabsOf]
  refine ⟨fun h => h.2, fun h => ⟨?_, h⟩⟩
  by_contra hk
  rw [List.getD_eq_default _ _ (by omega)] at h
  cases h

theorem map_getD_range {α : Type} (S : List α) (d : α) : (List.range S.length).map (fun k => S.getD k d) = S := by
  apply List.ext_getElem
  · simp
  · intro i h1 h2
    simp [h2]

theorem stabsOf_card (S : List (List V)) (x : V) : (stabsOf S x).card = S.countP fun s => decide (x ∈ s) := by
  conv_rhs => rw [← map_getD_range S [], List.countP_map]
  unfold stabsOf
  rw [← countP_finset (List.nodup_range (n := S.length)) (s := Finset.range S.length) (by simp)]
  rfl

section
variable {code : Code} (h : CodeOk code) (hd : ∀ i, 2 ≤ code.dims i)
include h

theorem CodeOk.mem_syndrome_of_stab {k : ℕ} {x : V} (hx : x ∈ code.stabs.getD k []) : x ∈ code.syndrome := by
  have hk : k < code.stabs.length := (mem_stabsOf.1 (mem_stabsOf'.2 hx)).1
  rw [List.getD_eq_getElem _ _ hk] at hx
  obtain ⟨c, hc, hr⟩ := h.stab_center (List.getElem_mem hk)
  rw [h.syndrome]
  exact (Finset.mem_filter.1 ((stabAt_mem hr hc x).1 hx)).1

include hd

theorem CodeOk.stabsOf_card {x : V} (hx : x ∈ code.syndrome) :
    (stabsOf code.stabs x).card = if x ∈ code.boundPoints then 1 else 2 := by
  rw [SurfaceCode.stabsOf_card]; exact h.count_eq hd hx

theorem CodeOk.bound_nodup : code.boundPoints.Nodup := by
  rcases h.bound_cases with ⟨_, h2⟩ | ⟨_, lo, hi, e, nl, nh, ml, mh⟩
  · rw [h2]; simp
  · rw [e]
    apply nl.append nh
    intro x hx hx'
    have := hd (openAxis code.ec)
    have h1 := ((ml x).1 hx).2
    have h2 := ((mh x).1 hx').2
    rw [h1] at h2
    generalize code.dims (openAxis code.ec) = d at *
    revert h2
    cases code.ec <;> simp only [lowF, highF] <;> omega

end

/-- The edges of the graph of a code. -/
def codeEdges (sp : SetPop) (code : Code) : List (Sym2 SNode × Option V) :=
  edgeList sp code.stabs (code.boundPoints.take (code.boundPoints.length / 2))
    (code.boundPoints.drop (code.boundPoints.length / 2))

theorem mem_codeEdges {sp : SetPop} {code : Code} {e : Sym2 SNode × Option V} :
    e ∈ codeEdges sp code ↔
      (∃ p ∈ code.boundPoints.take (code.boundPoints.length / 2), e = (s(.low, .pt p), none)) ∨
      (∃ p ∈ code.boundPoints.drop (code.boundPoints.length / 2), e = (s(.high, .pt p), none)) ∨
      (∃ i j, i < j ∧ j < code.stabs.length ∧
        commonVertices (code.stabs.getD i []) (code.stabs.getD j []) ≠ [] ∧
        e = (s(.stab i, .stab j), some (sp.pop i j
          (commonVertices (code.stabs.getD i []) (code.stabs.getD j []))))) ∨
      (∃ k p, k < code.stabs.length ∧ p ∈ code.boundPoints ∧ p ∈ code.stabs.getD k [] ∧
        e = (s(.stab k, .pt p), some p)) := by
  unfold codeEdges edgeList
  rw [List.mem_append, List.mem_append, List.mem_append, mem_lowE, mem_highE, mem_stabE, mem_ptE,
    List.take_append_drop]
  simp only [or_assoc]

section
variable {code : Code} (h : CodeOk code) (hd : ∀ i, 2 ≤ code.dims i) (sp : SetPop)
include h hd

theorem CodeOk.codeEdges_nodup : (PyDict.keys (codeEdges sp code)).Nodup := by
  unfold codeEdges
  apply edgeList_keys_nodup
  rw [List.take_append_drop]
  exact h.bound_nodup hd

theorem CodeOk.stabsOf_pair {x : V} {i j : ℕ} (hij : i ≠ j) (hi : x ∈ code.stabs.getD i [])
    (hj : x ∈ code.stabs.getD j []) : stabsOf code.stabs x = {i, j} ∧ x ∉ code.boundPoints := by
  have hx := h.mem_syndrome_of_stab hi
  have hc := h.stabsOf_card hd hx
  have hsub : {i, j} ⊆ stabsOf code.stabs x := by
    intro k hk
    rw [Finset.mem_insert, Finset.mem_singleton] at hk
    rcases hk with rfl | rfl <;> rw [mem_stabsOf'] <;> assumption
  have h2 : ({i, j} : Finset ℕ).card = 2 := Finset.card_pair hij
  have := Finset.card_le_card hsub
  split_ifs at hc with hb
  · omega
  · exact ⟨(Finset.eq_of_subset_of_card_le hsub (by omega)).symm, hb⟩

theorem CodeOk.stabsOf_bound {x : V} {i : ℕ} (hi : x ∈ code.stabs.getD i []) (hb : x ∈ code.boundPoints) :
    stabsOf code.stabs x = {i} := by
  have hx := h.mem_syndrome_of_stab hi
  have hc := h.stabsOf_card hd hx
  rw [if_pos hb, Finset.card_eq_one] at hc
  obtain ⟨a, ha⟩ := hc
  have : i ∈ stabsOf code.stabs x := mem_stabsOf'.2 hi
  rw [ha, Finset.mem_singleton] at this
  rw [ha, this]

omit h hd in
theorem pop_mem {i j : ℕ} {S : List (List V)} (hc : commonVertices (S.getD i []) (S.getD j []) ≠ []) :
    sp.pop i j (commonVertices (S.getD i []) (S.getD j [])) ∈ S.getD i [] ∧
    sp.pop i j (commonVertices (S.getD i []) (S.getD j [])) ∈ S.getD j [] := by
  have := sp.mem i j _ hc
  unfold commonVertices at this
  rw [List.mem_filter, decide_eq_true_eq] at this
  exact this

/-- The qubit on an edge toggles exactly the stabilizers at its ends. -/
theorem CodeOk.edge_effect {e : Sym2 SNode} {x : V} (he : (e, some x) ∈ codeEdges sp code) :
    x ∈ code.syndrome ∧ (∀ k, x ∈ code.stabs.getD k [] ↔ SNode.stab k ∈ e) ∧ SNode.low ∉ e ∧ SNode.high ∉ e := by
  rcases mem_codeEdges.1 he with ⟨p, _, h1⟩ | ⟨p, _, h1⟩ | ⟨i, j, hij, hj, hc, h1⟩ | ⟨k, p, hk, hp, hpk, h1⟩
  · cases h1
  · cases h1
  · obtain ⟨rfl, h2⟩ := Prod.mk.inj h1
    have hx := Option.some.inj h2
    obtain ⟨h3, h4⟩ := pop_mem sp hc
    rw [← hx] at h3 h4
    refine ⟨h.mem_syndrome_of_stab h3, ?_, by simp, by simp⟩
    intro k
    rw [← mem_stabsOf', (h.stabsOf_pair hd (by omega) h3 h4).1]
    simp
  · obtain ⟨rfl, h2⟩ := Prod.mk.inj h1
    obtain rfl := Option.some.inj h2
    refine ⟨h.mem_syndrome_of_stab hpk, ?_, by simp, by simp⟩
    intro l
    rw [← mem_stabsOf', h.stabsOf_bound hd hpk hp]
    simp

omit h hd in
theorem edge_none {e : Sym2 SNode} (he : (e, none) ∈ codeEdges sp code) :
    ((SNode.low ∈ e ∧ SNode.high ∉ e) ∨ (SNode.high ∈ e ∧ SNode.low ∉ e)) ∧ ∀ k, SNode.stab k ∉ e := by
  rcases mem_codeEdges.1 he with ⟨p, _, h1⟩ | ⟨p, _, h1⟩ | ⟨i, j, hij, hj, hc, h1⟩ | ⟨k, p, hk, hp, hpk, h1⟩
  · obtain ⟨rfl, _⟩ := Prod.mk.inj h1; simp
  · obtain ⟨rfl, _⟩ := Prod.mk.inj h1; simp
  · cases h1
  · cases h1

/-- Two stabilizers sharing a qubit are joined. -/
theorem CodeOk.joined {i j : ℕ} (hij : i ≠ j) {x : V} (hi : x ∈ code.stabs.getD i [])
    (hj : x ∈ code.stabs.getD j []) :
    ∃ y, (s(.stab i, .stab j), some y) ∈ codeEdges sp code ∧ stabsOf code.stabs y = stabsOf code.stabs x := by
  have hli := (mem_stabsOf.1 (mem_stabsOf'.2 hi)).1
  have hlj := (mem_stabsOf.1 (mem_stabsOf'.2 hj)).1
  have key : ∀ i j, i < j → j < code.stabs.length → x ∈ code.stabs.getD i [] → x ∈ code.stabs.getD j [] →
      ∃ y, (s(.stab i, .stab j), some y) ∈ codeEdges sp code ∧ stabsOf code.stabs y = stabsOf code.stabs x := by
    intro i j hij hlj hi hj
    have hc : commonVertices (code.stabs.getD i []) (code.stabs.getD j []) ≠ [] := by
      apply List.ne_nil_of_mem (a := x)
      unfold commonVertices
      rw [List.mem_filter, decide_eq_true_eq]
      exact ⟨hi, hj⟩
    refine ⟨_, mem_codeEdges.2 (Or.inr (Or.inr (Or.inl ⟨i, j, hij, hlj, hc, rfl⟩))), ?_⟩
    obtain ⟨h3, h4⟩ := pop_mem sp hc
    rw [(h.stabsOf_pair hd (by omega) h3 h4).1, (h.stabsOf_pair hd (by omega) hi hj).1]
  rcases Nat.lt_or_gt_of_ne hij with hlt | hgt
  · exact key i j hlt hlj hi hj
  · rw [Sym2.eq_swap]; exact key j i hgt hli hj hi

/-- Every qubit's action is available on an edge. -/
theorem CodeOk.qubit_edge {x : V} (hx : x ∈ code.syndrome) :
    ∃ e y, (e, some y) ∈ codeEdges sp code ∧ stabsOf code.stabs y = stabsOf code.stabs x := by
  have hc := h.stabsOf_card hd hx
  split_ifs at hc with hb
  · obtain ⟨k, hk⟩ := Finset.card_eq_one.1 hc
    have hkm : k ∈ stabsOf code.stabs x := by rw [hk]; simp
    obtain ⟨h1, h2⟩ := mem_stabsOf.1 hkm
    exact ⟨_, x, mem_codeEdges.2 (Or.inr (Or.inr (Or.inr ⟨k, x, h1, hb, h2, rfl⟩))), rfl⟩
  · obtain ⟨i, j, hij, he⟩ := Finset.card_eq_two.1 hc
    have hi : i ∈ stabsOf code.stabs x := by rw [he]; simp
    have hj : j ∈ stabsOf code.stabs x := by rw [he]; simp
    obtain ⟨y, hy, hs⟩ := h.joined hd sp hij (mem_stabsOf'.1 hi) (mem_stabsOf'.1 hj)
    exact ⟨_, y, hy, hs⟩

/-- Different edges carry different qubits. -/
theorem CodeOk.edge_unique {e e' : Sym2 SNode} {x : V} (he : (e, some x) ∈ codeEdges sp code)
    (he' : (e', some x) ∈ codeEdges sp code) : e = e' := by
  have form : ∀ e, (e, some x) ∈ codeEdges sp code →
      (∃ i j, i ≠ j ∧ e = s(.stab i, .stab j) ∧ stabsOf code.stabs x = {i, j} ∧ x ∉ code.boundPoints) ∨
      (∃ k, e = s(.stab k, .pt x) ∧ stabsOf code.stabs x = {k} ∧ x ∈ code.boundPoints) := by
    intro e he
    rcases mem_codeEdges.1 he with ⟨p, _, h1⟩ | ⟨p, _, h1⟩ | ⟨i, j, hij, hj, hc, h1⟩ | ⟨k, p, hk, hp, hpk, h1⟩
    · cases h1
    · cases h1
    · left
      obtain ⟨rfl, h2⟩ := Prod.mk.inj h1
      have hx := Option.some.inj h2
      obtain ⟨h3, h4⟩ := pop_mem sp hc
      rw [← hx] at h3 h4
      exact ⟨i, j, by omega, rfl, h.stabsOf_pair hd (by omega) h3 h4⟩
    · right
      obtain ⟨rfl, h2⟩ := Prod.mk.inj h1
      obtain rfl := Option.some.inj h2
      exact ⟨k, rfl, h.stabsOf_bound hd hpk hp, hp⟩
  rcases form e he with ⟨i, j, hij, rfl, h1, h2⟩ | ⟨k, rfl, h1, h2⟩ <;>
    rcases form e' he' with ⟨i', j', hij', rfl, h3, h4⟩ | ⟨k', rfl, h3, h4⟩
  · rw [h1] at h3
    have a1 : i ∈ ({i', j'} : Finset ℕ) := by rw [← h3]; simp
    have a2 : j ∈ ({i', j'} : Finset ℕ) := by rw [← h3]; simp
    simp only [Finset.mem_insert, Finset.mem_singleton] at a1 a2
    rw [Sym2.eq_iff]
    rcases a1 with rfl | rfl <;> rcases a2 with rfl | rfl
    · exact absurd rfl hij
    · exact Or.inl ⟨rfl, rfl⟩
    · exact Or.inr ⟨rfl, rfl⟩
    · exact absurd rfl hij
  · exact absurd h4 h2
  · exact absurd h2 h4
  · rw [h1, Finset.singleton_inj] at h3
    rw [h3]

end

/-! ### Walks -/

section
variable {E : List (Sym2 SNode × ℚ)}

theorem isWalk_refl (a : SNode) : IsWalk E a a [a] := ⟨rfl, rfl, by simp⟩

theorem isWalk_cons {a b c : SNode} {p : List SNode} (hab : s(a, b) ∈ PyDict.keys E) (hp : IsWalk E b c p) :
    IsWalk E a c (a :: p) := by
  obtain ⟨h1, h2, h3⟩ := hp
  cases p with
  | nil => cases h1
  | cons x p =>
    obtain rfl := Option.some.inj h1
    refine ⟨rfl, ?_, ?_⟩
    · rw [List.getLast?_cons_cons]; exact h2
    · rw [List.isChain_cons_cons]; exact ⟨hab, h3⟩

theorem isWalk_uncons {a b c : SNode} {p : List SNode} (hp : IsWalk E a c (a :: b :: p)) :
    s(a, b) ∈ PyDict.keys E ∧ IsWalk E b c (b :: p) := by
  obtain ⟨h1, h2, h3⟩ := hp
  rw [List.isChain_cons_cons] at h3
  rw [List.getLast?_cons_cons] at h2
  exact ⟨h3.1, rfl, h2, h3.2⟩

/-- Induction along a walk. -/
theorem IsWalk.ind {motive : SNode → List SNode → Prop} {c : SNode} (base : motive c [c])
    (step : ∀ a b p, s(a, b) ∈ PyDict.keys E → IsWalk E b c (b :: p) → motive b (b :: p) → motive a (a :: b :: p))
    {a : SNode} {p : List SNode} (h : IsWalk E a c p) : motive a p := by
  induction p generalizing a with
  | nil => cases h.1
  | cons x p ih =>
    obtain rfl : x = a := Option.some.inj h.1
    cases p with
    | nil =>
      have : x = c := Option.some.inj h.2.1
      subst this; exact base
    | cons y p =>
      obtain ⟨h1, h2⟩ := isWalk_uncons h
      exact step _ _ _ h1 h2 (ih h2)

/-- Reachability. -/
def Reach (E : List (Sym2 SNode × ℚ)) (a b : SNode) : Prop := ∃ p, IsWalk E a b p

theorem Reach.refl (a : SNode) : Reach E a a := ⟨_, isWalk_refl a⟩

theorem Reach.cons {a b c : SNode} (hab : s(a, b) ∈ PyDict.keys E) (h : Reach E b c) : Reach E a c := by
  obtain ⟨p, hp⟩ := h
  exact ⟨_, isWalk_cons hab hp⟩

theorem Reach.step {a b : SNode} (hab : s(a, b) ∈ PyDict.keys E) : Reach E a b := (Reach.refl b).cons hab

theorem Reach.trans {a b c : SNode} (h1 : Reach E a b) (h2 : Reach E b c) : Reach E a c := by
  obtain ⟨p, hp⟩ := h1
  exact hp.ind (motive := fun a _ => Reach E a c) h2 fun a b p hab _ ih => ih.cons hab

theorem Reach.symm {a b : SNode} (h : Reach E a b) : Reach E b a := by
  obtain ⟨p, hp⟩ := h
  apply hp.ind (motive := fun a _ => Reach E b a) (Reach.refl b)
  intro a b' p hab _ ih
  exact ih.trans (Reach.step (by rw [Sym2.eq_swap]; exact hab))

end

/-! ### Connectedness -/

theorem keys_weightedEdges (G : StabGraph) (w : V → ℚ) : PyDict.keys (weightedEdges G w) = PyDict.keys G.edges := by
  unfold weightedEdges PyDict.keys
  rw [List.map_map]; rfl

theorem mem_keys_withoutConnectors {E : List (Sym2 SNode × ℚ)} {e : Sym2 SNode} :
    e ∈ PyDict.keys (withoutConnectors E) ↔ e ∈ PyDict.keys E ∧ SNode.low ∉ e ∧ SNode.high ∉ e := by
  unfold withoutConnectors PyDict.keys
  simp only [List.mem_map, List.mem_filter, decide_eq_true_eq]
  constructor
  · rintro ⟨x, ⟨h1, h2⟩, rfl⟩; exact ⟨⟨x, h1, rfl⟩, h2⟩
  · rintro ⟨⟨x, h1, rfl⟩, h2⟩; exact ⟨x, ⟨h1, h2⟩, rfl⟩

theorem forall₂_getD {α β : Type} {R : α → β → Prop} {l : List α} {m : List β} (h : List.Forall₂ R l m) (da : α)
    (db : β) {k : ℕ} (hk : k < l.length) : R (l.getD k da) (m.getD k db) := by
  induction h generalizing k with
  | nil => simp at hk
  | cons hab _ ih =>
    cases k with
    | zero => exact hab
    | succ k => exact ih (by simpa using hk)

section
variable {code : Code} (h : CodeOk code) (hd : ∀ i, 2 ≤ code.dims i)
include h

local notation "bds" => boundsOf code.ec code.boundaries

theorem CodeOk.stabs_length : (centers code.ec code.dims bds).length = code.stabs.length := h.stabs.length_eq

/-- The index of the stabilizer around a cell. -/
theorem CodeOk.cell_index {c : V} (hc : c ∈ cells code.ec code.dims bds) :
    ∃ k < code.stabs.length, ∀ x, x ∈ code.stabs.getD k [] ↔ inBox code.dims bds x ∧ adjacent code.dims bds x c := by
  obtain ⟨k, hk, hkc⟩ := List.getElem_of_mem (mem_centers_iff_cells.2 hc)
  refine ⟨k, by rw [← h.stabs_length]; exact hk, ?_⟩
  have := (forall₂_getD h.stabs (fun _ => 0) [] hk).2
  rw [List.getD_eq_getElem _ _ hk, hkc] at this
  exact this

theorem CodeOk.index_cell {k : ℕ} (hk : k < code.stabs.length) :
    ∃ c ∈ cells code.ec code.dims bds, ∀ x, x ∈ code.stabs.getD k [] ↔
      inBox code.dims bds x ∧ adjacent code.dims bds x c := by
  have hk' : k < (centers code.ec code.dims bds).length := by rw [h.stabs_length]; exact hk
  have := (forall₂_getD h.stabs (fun _ => 0) [] hk').2
  rw [List.getD_eq_getElem _ _ hk'] at this
  exact ⟨_, mem_centers_iff_cells.1 (List.getElem_mem hk'), this⟩

end

/-- Stabilizers around the two cells, whichever, can reach each other. -/
def CellReach (code : Code) (E : List (Sym2 SNode × ℚ)) (c c' : V) : Prop :=
  ∀ k < code.stabs.length, ∀ k' < code.stabs.length,
    (∀ x, x ∈ code.stabs.getD k [] ↔
      inBox code.dims (boundsOf code.ec code.boundaries) x ∧
        adjacent code.dims (boundsOf code.ec code.boundaries) x c) →
    (∀ x, x ∈ code.stabs.getD k' [] ↔
      inBox code.dims (boundsOf code.ec code.boundaries) x ∧
        adjacent code.dims (boundsOf code.ec code.boundaries) x c') →
    Reach E (.stab k) (.stab k')

section
variable {code : Code} (h : CodeOk code) (hd : ∀ i, 2 ≤ code.dims i) (sp : SetPop)
  {E : List (Sym2 SNode × ℚ)}
  (hE : ∀ i j y, (s(SNode.stab i, .stab j), some y) ∈ codeEdges sp code → s(SNode.stab i, .stab j) ∈ PyDict.keys E)
include h hd hE

local notation "bds" => boundsOf code.ec code.boundaries

theorem CodeOk.share_reach {c c' x : V} (hx : inBox code.dims bds x) (h1 : adjacent code.dims bds x c)
    (h2 : adjacent code.dims bds x c') : CellReach code E c c' := by
  intro k hk k' hk' hs hs'
  by_cases hkk : k = k'
  · subst hkk; exact Reach.refl _
  · obtain ⟨y, hy, _⟩ := h.joined hd sp hkk ((hs x).2 ⟨hx, h1⟩) ((hs' x).2 ⟨hx, h2⟩)
    exact Reach.step (hE _ _ y hy)

omit hE hd in
theorem CodeOk.cellReach_trans {a b c : V} (hb : b ∈ cells code.ec code.dims bds) (h1 : CellReach code E a b)
    (h2 : CellReach code E b c) : CellReach code E a c := by
  intro k hk k' hk' hs hs'
  obtain ⟨m, hm, hms⟩ := h.cell_index hb
  exact (h1 k hk m hm hs hms).trans (h2 m hm k' hk' hms hs')

omit h hd hE in
theorem CellReach.symm {a b : V} (h1 : CellReach code E a b) : CellReach code E b a :=
  fun k hk k' hk' hs hs' => (h1 k' hk' k hk hs' hs).symm

omit h hd hE in
theorem inAxis_mid {bd : Bd} {d : ℕ} {a b c : ℤ} (ha : inAxis bd d a) (hb : inAxis bd d b) (h1 : a ≤ c) (h2 : c ≤ b) :
    inAxis bd d c := by
  cases bd <;> simp only [inAxis] at * <;> omega

omit h hd hE in
theorem cell_update {ec : Ec} {dims : Fin 3 → ℕ} {b : Fin 3 → Bd} {c : V} (hc : c ∈ cells ec dims b) {i : Fin 3} {a : ℤ}
    (ha : inAxis (b i) (dims i) a) (hp : a % 2 = cellPar ec) : Function.update c i a ∈ cells ec dims b := by
  obtain ⟨h1, h2⟩ := mem_cells.1 hc
  refine mem_cells.2 ⟨inBox_update h1 ha, fun j => ?_⟩
  by_cases hj : j = i
  · subst hj; simpa using hp
  · simpa [hj] using h2 j

/-- Moving along one axis. -/
theorem CodeOk.move {c : V} (hc : c ∈ cells code.ec code.dims bds) (i : Fin 3) (n : ℕ)
    (ha : inAxis (bds i) (code.dims i) (c i + 2 * n)) :
    CellReach code E c (Function.update c i (c i + 2 * n)) := by
  obtain ⟨h1, h2⟩ := mem_cells.1 hc
  induction n with
  | zero =>
    simp only [Nat.cast_zero, mul_zero, add_zero, Function.update_eq_self]
    intro k hk k' hk' hs hs'
    by_cases hkk : k = k'
    · subst hkk; exact Reach.refl _
    · -- two stabilizers around the same cell share a qubit
      have hx : ∃ x, inBox code.dims bds x ∧ adjacent code.dims bds x c := by
        obtain ⟨j, hj⟩ : ∃ j : Fin 3, j = 0 := ⟨0, rfl⟩
        have hne : (nb (bds j) (code.dims j) (c j)).Nonempty := by
          have : inAxis (bds j) (code.dims j) (c j + 1) ∨ inAxis (bds j) (code.dims j) (c j - 1) := by
            have hg := goodDims_of_two hd bds
            by_cases hp : c j % 2 = 0
            · exact axis_even_has (hg j) (h1 j) hp
            · exact axis_odd_has (hg j) (h1 j) (by omega)
          rcases this with h | h
          · exact ⟨_, mem_nb.2 ⟨h, by unfold nextTo; omega⟩⟩
          · exact ⟨_, mem_nb.2 ⟨h, by unfold nextTo; omega⟩⟩
        obtain ⟨b, hb⟩ := hne
        exact ⟨_, (adj_cell_iff h1 _).2 ⟨j, b, hb, rfl⟩⟩
      obtain ⟨x, hx, hadj⟩ := hx
      exact h.share_reach hd sp hE hx hadj hadj k hk k' hk' hs hs'
  | succ n ih =>
    have hn : inAxis (bds i) (code.dims i) (c i + 2 * n) :=
      inAxis_mid (h1 i) ha (by omega) (by push_cast; omega)
    have hmid : inAxis (bds i) (code.dims i) (c i + 2 * n + 1) :=
      inAxis_mid (h1 i) ha (by omega) (by push_cast; omega)
    apply h.cellReach_trans (cell_update hc hn (by have := h2 i; omega)) (ih hn)
    apply h.share_reach hd sp hE (x := Function.update c i (c i + 2 * n + 1)) (inBox_update h1 hmid)
    · refine ⟨i, ?_, fun j hj => by simp [hj]⟩
      simp only [Function.update_self]; unfold nextTo; omega
    · refine ⟨i, ?_, fun j hj => by simp [hj]⟩
      simp only [Function.update_self]; unfold nextTo; push_cast; omega

theorem CodeOk.move' {c : V} (hc : c ∈ cells code.ec code.dims bds) (i : Fin 3) {a : ℤ}
    (ha : inAxis (bds i) (code.dims i) a) (hp : a % 2 = cellPar code.ec) :
    CellReach code E c (Function.update c i a) := by
  obtain ⟨h1, h2⟩ := mem_cells.1 hc
  have hpar := h2 i
  by_cases hle : c i ≤ a
  · obtain ⟨n, hn⟩ : ∃ n : ℕ, a = c i + 2 * n := ⟨((a - c i) / 2).toNat, by omega⟩
    rw [hn]
    apply h.move hd sp hE hc i n
    rw [← hn]; exact ha
  · obtain ⟨n, hn⟩ : ∃ n : ℕ, c i = a + 2 * n := ⟨((c i - a) / 2).toNat, by omega⟩
    have hc' := cell_update hc ha hp
    have := h.move hd sp hE hc' i n (by simp only [Function.update_self]; rw [← hn]; exact h1 i)
    simp only [Function.update_self, Function.update_idem, ← hn, Function.update_eq_self] at this
    exact this.symm

theorem CodeOk.cells_reach {c c' : V} (hc : c ∈ cells code.ec code.dims bds) (hc' : c' ∈ cells code.ec code.dims bds) :
    CellReach code E c c' := by
  obtain ⟨h1, h2⟩ := mem_cells.1 hc'
  have m0 := cell_update hc (h1 0) (h2 0)
  have m1 := cell_update m0 (h1 1) (h2 1)
  have e : Function.update (Function.update (Function.update c 0 (c' 0)) 1 (c' 1)) 2 (c' 2) = c' := by
    funext j
    revert j
    rw [forall3]
    refine ⟨?_, ?_, ?_⟩ <;> simp [Function.update]
  have r0 := h.move' hd sp hE hc 0 (h1 0) (h2 0)
  have r1 := h.move' hd sp hE m0 1 (h1 1) (h2 1)
  have r2 := h.move' hd sp hE m1 2 (h1 2) (h2 2)
  rw [e] at r2
  exact h.cellReach_trans m0 r0 (h.cellReach_trans m1 r1 r2)

/-- All stabilizers reach each other. -/
theorem CodeOk.stabs_reach {k k' : ℕ} (hk : k < code.stabs.length) (hk' : k' < code.stabs.length) :
    Reach E (.stab k) (.stab k') := by
  obtain ⟨c, hc, hs⟩ := h.index_cell hk
  obtain ⟨c', hc', hs'⟩ := h.index_cell hk'
  exact h.cells_reach hd sp hE hc hc' k hk k' hk' hs hs'

end

end Flamingpy.SurfaceCode
