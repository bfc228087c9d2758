import Verif.Model.EGraph
import Verif.Proofs.PyDict
import Mathlib.Data.List.Range
import Mathlib.Data.List.Zip
import Mathlib.Data.List.Perm.Subperm
import Mathlib.Tactic.Linarith

/-! Helper lemmas for `Props/EGraph`. -/

namespace Flamingpy.EGraph

open Flamingpy

/-- Swap key and value. -/
def swp {A B : Type} (e : A × B) : B × A := (e.2, e.1)

/-- All micronodes listed in a macronode dictionary. -/
def flat (md : List (Pt × List Pt)) : List Pt := md.flatMap (·.2)

/-- State invariant. -/
structure Inv (g : EG) : Prop where
  nd : g.nodes.Nodup
  ends : ∀ e ∈ g.edges, e.1 ∈ g.nodes ∧ e.2.1 ∈ g.nodes
  uniq : ∀ e ∈ g.edges, ∀ e' ∈ g.edges, joins e e'.1 e'.2.1 = true → e = e'
  idx : (g.toIndices = none ∧ g.toPoints = none) ∨ ∃ ti, g.toIndices = some ti ∧
    g.toPoints = some (ti.map swp) ∧ (PyDict.keys ti).Perm g.nodes ∧ (PyDict.values ti).Nodup
  mac : ∀ md, g.macroToMicro = some md →
    (PyDict.keys md).Nodup ∧ (flat md).Nodup ∧ ∀ p ∈ flat md, p ∈ g.nodes

theorem joins_comm (e : Pt × Pt × ℤ) (u v : Pt) : joins e u v = joins e v u := by
  unfold joins; simp only [or_comm]

theorem joins_iff (e : Pt × Pt × ℤ) (u v : Pt) :
    joins e u v = true ↔ (e.1 = u ∧ e.2.1 = v) ∨ (e.1 = v ∧ e.2.1 = u) := by
  unfold joins; simp

theorem weight_comm (g : EG) (u v : Pt) : weight g u v = weight g v u := by
  unfold weight; simp only [joins_comm _ u v]

theorem weight_of_mem {g : EG} (hu : ∀ e ∈ g.edges, ∀ e' ∈ g.edges, joins e e'.1 e'.2.1 = true → e = e')
    {u v : Pt} {w : ℤ} (h : (u, v, w) ∈ g.edges ∨ (v, u, w) ∈ g.edges) : weight g u v = w := by
  have key : ∀ a b, (a, b, w) ∈ g.edges → weight g a b = w := by
    intro a b hm
    unfold weight
    cases hf : g.edges.find? fun e => joins e a b with
    | none =>
      have := List.find?_eq_none.mp hf _ hm
      simp [joins] at this
    | some e =>
      have h1 := List.mem_of_find?_eq_some hf
      have h2 : joins e a b = true := by simpa using List.find?_some hf
      have := hu e h1 (a, b, w) hm h2
      simp [this]
  rcases h with h | h
  · exact key _ _ h
  · rw [weight_comm]; exact key _ _ h

theorem weight_of_not_mem {g : EG} {u v : Pt}
    (h : ¬ ∃ w, (u, v, w) ∈ g.edges ∨ (v, u, w) ∈ g.edges) : weight g u v = 0 := by
  unfold weight
  cases hf : g.edges.find? fun e => joins e u v with
  | none => rfl
  | some e =>
    exfalso
    apply h
    have h1 := List.mem_of_find?_eq_some hf
    have h2 : joins e u v = true := by simpa using List.find?_some hf
    rw [joins_iff] at h2
    obtain ⟨a, b, w⟩ := e
    rcases h2 with ⟨rfl, rfl⟩ | ⟨rfl, rfl⟩
    · exact ⟨w, Or.inl h1⟩
    · exact ⟨w, Or.inr h1⟩

/-! ### sorting -/

theorem ptLe_trans (a b c : Pt) (h1 : ptLe a b = true) (h2 : ptLe b c = true) : ptLe a c = true := by
  unfold ptLe at *
  simp only [decide_eq_true_eq] at *
  rcases h1 with h1 | ⟨e1, h1⟩ <;> rcases h2 with h2 | ⟨e2, h2⟩
  · exact Or.inl (h1.trans h2)
  · exact Or.inl (e2 ▸ h1)
  · exact Or.inl (e1 ▸ h2)
  · refine Or.inr ⟨e1.trans e2, ?_⟩
    rcases h1 with h1 | ⟨f1, h1⟩ <;> rcases h2 with h2 | ⟨f2, h2⟩
    · exact Or.inl (h1.trans h2)
    · exact Or.inl (f2 ▸ h1)
    · exact Or.inl (f1 ▸ h2)
    · exact Or.inr ⟨f1.trans f2, h1.trans h2⟩

theorem ptLe_total (a b : Pt) : (ptLe a b || ptLe b a) = true := by
  unfold ptLe
  simp only [Bool.or_eq_true, decide_eq_true_eq]
  rcases lt_trichotomy a.1 b.1 with h | h | h
  · exact Or.inl (Or.inl h)
  · rcases lt_trichotomy a.2.1 b.2.1 with h2 | h2 | h2
    · exact Or.inl (Or.inr ⟨h, Or.inl h2⟩)
    · rcases le_total a.2.2 b.2.2 with h3 | h3
      · exact Or.inl (Or.inr ⟨h, Or.inr ⟨h2, h3⟩⟩)
      · exact Or.inr (Or.inr ⟨h.symm, Or.inr ⟨h2.symm, h3⟩⟩)
    · exact Or.inr (Or.inr ⟨h.symm, Or.inl h2⟩)
  · exact Or.inr (Or.inl h)

theorem ptLe_antisymm (a b : Pt) (h1 : ptLe a b = true) (h2 : ptLe b a = true) : a = b := by
  unfold ptLe at *
  simp only [decide_eq_true_eq] at *
  rcases h1 with h1 | ⟨e1, h1⟩ <;> rcases h2 with h2 | ⟨e2, h2⟩
  · exact absurd h1 (lt_asymm h2)
  · exact absurd e2 (ne_of_gt h1)
  · exact absurd e1 (ne_of_gt h2)
  · rcases h1 with h1 | ⟨f1, h1⟩ <;> rcases h2 with h2 | ⟨f2, h2⟩
    · exact absurd h1 (lt_asymm h2)
    · exact absurd f2 (ne_of_gt h1)
    · exact absurd f1 (ne_of_gt h2)
    · exact Prod.ext e1 (Prod.ext f1 (le_antisymm h1 h2))

theorem sorted_perm (l : List Pt) : (sorted l).Perm l := List.mergeSort_perm l ptLe

theorem sorted_pairwise (l : List Pt) : (sorted l).Pairwise fun a b => ptLe a b = true :=
  List.pairwise_mergeSort ptLe_trans ptLe_total l

/-! ### index dictionaries -/

theorem keys_swp (ti : List (Pt × ℕ)) : PyDict.keys (ti.map swp) = PyDict.values ti := by
  unfold PyDict.keys PyDict.values; rw [List.map_map]; rfl

theorem keys_zip (l : List Pt) : PyDict.keys (l.zip (List.range l.length)) = l := by
  unfold PyDict.keys; rw [List.map_fst_zip]; simp

theorem values_zip (l : List Pt) : PyDict.values (l.zip (List.range l.length)) = List.range l.length := by
  unfold PyDict.values; rw [List.map_snd_zip]; simp

/-- Setting fresh indices from a duplicate-free list that is a permutation of the nodes. -/
theorem inv_setIndices {g : EG} (h : Inv g) (l : List Pt) (hl : l.Perm g.nodes) :
    let d := PyDict.ofPairs (l.zip (List.range l.length))
    d = l.zip (List.range l.length) ∧
    Inv { g with toIndices := some d, toPoints := some (PyDict.ofPairs (d.map fun e => (e.2, e.1))) } := by
  have hnd : l.Nodup := hl.nodup_iff.mpr h.nd
  have e1 : PyDict.ofPairs (l.zip (List.range l.length)) = l.zip (List.range l.length) :=
    PyDict.ofPairs_nodup _ (by rw [keys_zip]; exact hnd)
  refine ⟨e1, ?_⟩
  have hv : (PyDict.values (l.zip (List.range l.length))).Nodup := by
    rw [values_zip]; exact List.nodup_range
  refine ⟨h.nd, h.ends, h.uniq, Or.inr ⟨l.zip (List.range l.length), ?_, ?_, ?_, hv⟩, h.mac⟩
  · simp only [e1]
  · simp only [e1]
    rw [PyDict.ofPairs_nodup]
    · rfl
    · change (PyDict.keys ((l.zip (List.range l.length)).map swp)).Nodup
      rw [keys_swp]; exact hv
  · rw [keys_zip]; exact hl

theorem flatMap_get (md : List (Pt × List Pt)) (hk : (PyDict.keys md).Nodup) :
    (PyDict.keys md).flatMap (fun v => (PyDict.get? md v).getD []) = flat md := by
  unfold flat PyDict.keys
  rw [List.flatMap_map]
  have : ∀ e ∈ md, (PyDict.get? md e.1).getD [] = e.2 := by
    intro e he
    rw [(PyDict.get?_iff_mem hk e.1 e.2).mpr he]; rfl
  induction md with
  | nil => rfl
  | cons e md _ =>
    exact List.flatMap_congr this

theorem indexGenerator_some {g : EG} {ti : List (Pt × ℕ)} (h : g.toIndices = some ti) :
    indexGenerator g = (.ok ti, g) := by
  unfold indexGenerator; simp only [h]

/-- `index_generator` on an unindexed graph: raises and changes nothing, or enumerates a
permutation of the nodes. -/
theorem indexGenerator_none {g : EG} (h : Inv g) (hti : g.toIndices = none) :
    (∃ e, indexGenerator g = (.error e, g) ∧ g.macronodes = true ∧
      ∀ md, g.macroToMicro = some md → ¬ (flat md).Perm g.nodes) ∨
    ∃ l : List Pt, l.Perm g.nodes ∧ (g.macronodes = false → l = sorted g.nodes) ∧
      (∀ md, g.macronodes = true → g.macroToMicro = some md →
        l = (sorted (PyDict.keys md)).flatMap fun v => (PyDict.get? md v).getD []) ∧
      indexGenerator g = (.ok (l.zip (List.range l.length)),
        { g with
          toIndices := some (l.zip (List.range l.length))
          toPoints := some ((l.zip (List.range l.length)).map swp) }) := by
  have mk : ∀ l : List Pt, l.Perm g.nodes →
      PyDict.ofPairs (l.zip (List.range l.length)) = l.zip (List.range l.length) ∧
      PyDict.ofPairs ((l.zip (List.range l.length)).map fun e => (e.2, e.1)) =
        (l.zip (List.range l.length)).map swp := by
    intro l hl
    refine ⟨PyDict.ofPairs_nodup _ (by rw [keys_zip]; exact hl.nodup_iff.mpr h.nd),
      PyDict.ofPairs_nodup _ ?_⟩
    change (PyDict.keys ((l.zip (List.range l.length)).map swp)).Nodup
    rw [keys_swp, values_zip]; exact List.nodup_range
  unfold indexGenerator
  rw [hti]
  cases hm : g.macronodes with
  | true =>
    cases hmd : g.macroToMicro with
    | none => exact Or.inl ⟨.typeError, by simp, by trivial, by simp⟩
    | some md =>
      obtain ⟨hk, hfn, hfs⟩ := h.mac md hmd
      have hperm : ((sorted (PyDict.keys md)).flatMap fun v => (PyDict.get? md v).getD []).Perm
          (flat md) := by
        rw [← flatMap_get md hk]
        exact (sorted_perm _).flatMap_right _
      by_cases hlen : g.nodes.length ≤
          ((sorted (PyDict.keys md)).flatMap fun v => (PyDict.get? md v).getD []).length
      · right
        have hnd := hperm.nodup_iff.mpr hfn
        have hsub : ((sorted (PyDict.keys md)).flatMap fun v => (PyDict.get? md v).getD []) ⊆
            g.nodes := fun p hp => hfs p (hperm.subset hp)
        have hperm2 := (List.subperm_of_subset hnd hsub).perm_of_length_le hlen
        refine ⟨_, hperm2, by simp, by
          intro md' _ he; cases he; rfl, ?_⟩
        have e0 := List.take_of_length_le hperm2.length_eq.le
        have ⟨e1, e2⟩ := mk _ hperm2
        rw [hperm2.length_eq] at e1 e2
        simp only [if_true, if_pos hlen, e0, e1, e2, hperm2.length_eq]
        try simp [hm, hmd]
      · left
        refine ⟨.indexError, by simp only [if_true, if_neg hlen], by trivial, ?_⟩
        intro md' he hc
        cases he
        exact hlen (by rw [hperm.length_eq, hc.length_eq])
  | false =>
    right
    have hp := sorted_perm g.nodes
    refine ⟨sorted g.nodes, hp, fun _ => rfl, by simp, ?_⟩
    have ⟨e1, e2⟩ := mk _ hp
    rw [hp.length_eq] at e1 e2
    simp only [Bool.false_eq_true, if_false, e1, e2, hp.length_eq]
    try simp [hm]

theorem inv_indexGenerator {g : EG} (h : Inv g) : Inv (indexGenerator g).2 := by
  cases hti : g.toIndices with
  | some ti => rw [indexGenerator_some hti]; exact h
  | none =>
    rcases indexGenerator_none h hti with ⟨e, he, _⟩ | ⟨l, hl, _, _, he⟩
    · rw [he]; exact h
    · rw [he]
      refine ⟨h.nd, h.ends, h.uniq, Or.inr ⟨_, rfl, rfl, ?_, ?_⟩, h.mac⟩
      · rw [keys_zip]; exact hl
      · rw [values_zip]; exact List.nodup_range

/-! ### add_qubit -/

theorem addNode_new {g : EG} {p : Pt} (h : p ∉ g.nodes) :
    addNode g p = { g with nodes := g.nodes ++ [p] } := by
  unfold addNode; rw [if_neg h]

theorem addNode_old {g : EG} {p : Pt} (h : p ∈ g.nodes) : addNode g p = g := by
  unfold addNode; rw [if_pos h]

/-- Undirected adjacency. -/
def adj (g : EG) (u v : Pt) : Prop := ∃ w, (u, v, w) ∈ g.edges ∨ (v, u, w) ∈ g.edges

theorem any_joins_iff (g : EG) (u v : Pt) : (g.edges.any fun e => joins e u v) = true ↔ adj g u v := by
  rw [List.any_eq_true]
  constructor
  · rintro ⟨⟨a, b, w⟩, hm, hj⟩
    rw [joins_iff] at hj
    rcases hj with ⟨rfl, rfl⟩ | ⟨rfl, rfl⟩
    · exact ⟨w, Or.inl hm⟩
    · exact ⟨w, Or.inr hm⟩
  · rintro ⟨w, hm | hm⟩
    · exact ⟨_, hm, by rw [joins_iff]; exact Or.inl ⟨rfl, rfl⟩⟩
    · exact ⟨_, hm, by rw [joins_iff]; exact Or.inr ⟨rfl, rfl⟩⟩

theorem addEdge_spec {g : EG} (h : Inv g) {u v : Pt} (hu : u ∈ g.nodes) (hv : v ∈ g.nodes) :
    ∃ es, addEdge g u v = { g with edges := es } ∧ Inv { g with edges := es } ∧
      ∀ a b, adj { g with edges := es } a b ↔ adj g a b ∨ (a = u ∧ b = v) ∨ (a = v ∧ b = u) := by
  unfold addEdge
  rw [addNode_old hu, addNode_old hv]
  simp only
  by_cases hj : (g.edges.any fun e => joins e u v) = true
  · refine ⟨g.edges, by rw [if_pos hj], h, fun a b => ?_⟩
    rw [any_joins_iff] at hj
    refine ⟨Or.inl, ?_⟩
    rintro (hc | ⟨rfl, rfl⟩ | ⟨rfl, rfl⟩)
    · exact hc
    · exact hj
    · obtain ⟨w, hw⟩ := hj; exact ⟨w, hw.symm⟩
  · refine ⟨g.edges ++ [(u, v, 1)], by rw [if_neg hj], ⟨h.nd, ?_, ?_, h.idx, h.mac⟩, fun a b => ?_⟩
    · intro e he
      rcases List.mem_append.mp he with he | he
      · exact h.ends e he
      · rw [List.mem_singleton] at he; subst he; exact ⟨hu, hv⟩
    · intro e he e' he' hjj
      have hno : ∀ e ∈ g.edges, joins e u v = false := by
        intro e he
        cases hjn : joins e u v with
        | false => rfl
        | true => exact absurd (List.any_eq_true.mpr ⟨e, he, hjn⟩) hj
      rcases List.mem_append.mp he with he | he <;> rcases List.mem_append.mp he' with he' | he'
      · exact h.uniq e he e' he' hjj
      · rw [List.mem_singleton] at he'; subst he'
        rw [hno e he] at hjj; cases hjj
      · rw [List.mem_singleton] at he; subst he
        exfalso
        have := hno e' he'
        rw [joins_iff] at hjj
        have h2 : joins e' u v = true := by
          rw [joins_iff]
          rcases hjj with ⟨h1, h2⟩ | ⟨h1, h2⟩
          · exact Or.inl ⟨h1.symm, h2.symm⟩
          · exact Or.inr ⟨h2.symm, h1.symm⟩
        rw [this] at h2; cases h2
      · rw [List.mem_singleton] at he he'; rw [he, he']
    · unfold adj
      constructor
      · rintro ⟨w, hm | hm⟩ <;> rcases List.mem_append.mp hm with hm | hm
        · exact Or.inl ⟨w, Or.inl hm⟩
        · rw [List.mem_singleton] at hm; cases hm; exact Or.inr (Or.inl ⟨rfl, rfl⟩)
        · exact Or.inl ⟨w, Or.inr hm⟩
        · rw [List.mem_singleton] at hm; cases hm; exact Or.inr (Or.inr ⟨rfl, rfl⟩)
      · rintro (⟨w, hm | hm⟩ | ⟨rfl, rfl⟩ | ⟨rfl, rfl⟩)
        · exact ⟨w, Or.inl (List.mem_append_left _ hm)⟩
        · exact ⟨w, Or.inr (List.mem_append_left _ hm)⟩
        · exact ⟨1, Or.inl (List.mem_append_right _ (by simp))⟩
        · exact ⟨1, Or.inr (List.mem_append_right _ (by simp))⟩

theorem addEdge_edges {g : EG} {u v : Pt} (hu : u ∈ g.nodes) (hv : v ∈ g.nodes) :
    ∃ es, (addEdge g u v).edges = g.edges ++ es ∧ ∀ e ∈ es, e = (u, v, 1) := by
  unfold addEdge
  rw [addNode_old hu, addNode_old hv]
  simp only
  split_ifs
  · exact ⟨[], by simp, by simp⟩
  · exact ⟨[(u, v, 1)], rfl, by simp⟩

theorem addEdge_nodes {g : EG} {u v : Pt} (hu : u ∈ g.nodes) (hv : v ∈ g.nodes) :
    (addEdge g u v).nodes = g.nodes := by
  unfold addEdge
  rw [addNode_old hu, addNode_old hv]
  simp only
  split_ifs <;> rfl

/-- Existing edges are kept, new ones have weight 1 and end at the new qubit. -/
theorem addEdges_edges {g : EG} {p : Pt} (hp : p ∈ g.nodes) (l : List Pt) (hl : ∀ q ∈ l, q ∈ g.nodes) :
    ∃ es, (addEdges g p l).edges = g.edges ++ es ∧ ∀ e ∈ es, e.1 ∈ l ∧ e.2 = (p, 1) := by
  induction l generalizing g with
  | nil => exact ⟨[], by simp [addEdges], by simp⟩
  | cons q l ih =>
    have hq := hl q (by simp)
    have hn := addEdge_nodes hq hp
    obtain ⟨es1, h1, h2⟩ := addEdge_edges hq hp
    obtain ⟨es2, h3, h4⟩ := ih (g := addEdge g q p) (by rw [hn]; exact hp)
      (fun x hx => by rw [hn]; exact hl x (List.mem_cons_of_mem _ hx))
    refine ⟨es1 ++ es2, ?_, ?_⟩
    · unfold addEdges at h3 ⊢
      rw [List.foldl_cons, h3, h1, List.append_assoc]
    · intro e he
      rcases List.mem_append.1 he with he | he
      · rw [h2 e he]; simp
      · exact ⟨List.mem_cons_of_mem _ (h4 e he).1, (h4 e he).2⟩

theorem addEdges_spec {g : EG} (h : Inv g) {p : Pt} (hp : p ∈ g.nodes) (l : List Pt)
    (hl : ∀ q ∈ l, q ∈ g.nodes) :
    ∃ es, addEdges g p l = { g with edges := es } ∧ Inv { g with edges := es } ∧
      ∀ a b, adj { g with edges := es } a b ↔ adj g a b ∨ (a ∈ l ∧ b = p) ∨ (a = p ∧ b ∈ l) := by
  induction l generalizing g with
  | nil => exact ⟨g.edges, rfl, h, fun a b => by simp⟩
  | cons q l ih =>
    obtain ⟨es, e1, i1, a1⟩ := addEdge_spec h (hl q (by simp)) hp
    obtain ⟨es2, e2, i2, a2⟩ := ih (g := { g with edges := es }) i1 hp
      (fun q' hq' => hl q' (List.mem_cons_of_mem _ hq'))
    refine ⟨es2, ?_, i2, fun a b => ?_⟩
    · unfold addEdges at e2 ⊢
      rw [List.foldl_cons, e1, e2]
    · rw [show adj { g with edges := es2 } a b ↔ _ from a2 a b, a1 a b]
      simp only [List.mem_cons]
      tauto

theorem flat_set_old {md : List (Pt × List Pt)} {k : Pt} {l : List Pt} (hk : (PyDict.keys md).Nodup)
    (hg : PyDict.get? md k = some l) (p : Pt) :
    (flat (PyDict.set md k (l ++ [p]))).Perm (p :: flat md) := by
  have hm : k ∈ PyDict.keys md := by
    rw [← PyDict.get?_isSome_iff, hg]; rfl
  rw [PyDict.set_of_mem _ hm]
  clear hm
  induction md with
  | nil => simp [PyDict.get?_nil] at hg
  | cons e md ih =>
    rw [PyDict.get?_cons] at hg
    simp only [PyDict.keys, List.map_cons, List.nodup_cons] at hk
    by_cases he : e.1 = k
    · simp only [he, if_true, Option.some.injEq] at hg
      have hmap : md.map (fun e => if e.1 = k then (k, l ++ [p]) else e) = md := by
        conv_rhs => rw [← List.map_id md]
        apply List.map_congr_left
        intro x hx
        have : x.1 ≠ k := by
          intro hc
          exact hk.1 (by rw [he, ← hc]; exact List.mem_map_of_mem (f := (·.1)) hx)
        simp [this]
      rw [List.map_cons, hmap]
      simp only [he, if_true, flat, List.flatMap_cons, hg]
      rw [List.append_assoc]
      exact List.perm_middle
    · simp only [he, if_false] at hg
      have := ih hk.2 hg
      simp only [flat, List.map_cons, he, if_false, List.flatMap_cons] at this ⊢
      exact (this.append_left e.2).trans List.perm_middle

theorem flat_set_new {md : List (Pt × List Pt)} {k : Pt} (hg : PyDict.get? md k = none) (p : Pt) :
    (flat (PyDict.set md k [p])).Perm (p :: flat md) := by
  rw [PyDict.set_of_not_mem _ ((PyDict.get?_eq_none md k).mp hg)]
  simp only [flat, List.flatMap_append, List.flatMap_cons, List.flatMap_nil, List.append_nil]
  exact List.perm_append_singleton _ _

/-- The dictionary after recording a new micronode. -/
def macroAdd (md : List (Pt × List Pt)) (p : Pt) : List (Pt × List Pt) :=
  match PyDict.get? md (roundPt p) with
  | some l => PyDict.set md (roundPt p) (l ++ [p])
  | none => PyDict.set md (roundPt p) [p]

theorem macroAdd_spec {md : List (Pt × List Pt)} (hk : (PyDict.keys md).Nodup) (p : Pt) :
    (PyDict.keys (macroAdd md p)).Nodup ∧ (flat (macroAdd md p)).Perm (p :: flat md) ∧
    ((∀ e ∈ md, e.2 ≠ []) → ∀ e ∈ macroAdd md p, e.2 ≠ []) := by
  unfold macroAdd
  cases hg : PyDict.get? md (roundPt p) with
  | some l =>
    have hm : roundPt p ∈ PyDict.keys md := by rw [← PyDict.get?_isSome_iff, hg]; rfl
    refine ⟨by rw [PyDict.keys_set_of_mem _ hm]; exact hk, flat_set_old hk hg p, ?_⟩
    intro hne e he
    simp only [PyDict.set_of_mem _ hm] at he
    obtain ⟨e', he', rfl⟩ := List.mem_map.mp he
    split_ifs
    · simp
    · exact hne e' he'
  | none =>
    have hm := (PyDict.get?_eq_none md _).mp hg
    refine ⟨?_, flat_set_new hg p, ?_⟩
    · simp only [PyDict.set_of_not_mem _ hm, PyDict.keys_append]
      rw [List.nodup_append]
      refine ⟨hk, by simp [PyDict.keys], ?_⟩
      intro a ha b hb hab
      simp only [PyDict.keys, List.map_cons, List.map_nil, List.mem_singleton] at hb
      exact hm (by rw [← hb, ← hab]; exact ha)
    · intro hne e he
      simp only [PyDict.set_of_not_mem _ hm] at he
      rcases List.mem_append.mp he with he | he
      · exact hne e he
      · rw [List.mem_singleton] at he; subst he; simp

theorem updateAttributes_spec {g : EG} (h : Inv g) {p : Pt} (hp : p ∉ g.nodes)
    (hne : g.toIndices = none ∨ g.nodes ≠ []) (m : Bool) (hm : m = true → g.macroToMicro.isSome) :
    ∃ ti md, updateAttributes (addNode g p) p m =
        (.ok (), { g with
          nodes := g.nodes ++ [p], toIndices := ti, toPoints := ti.map fun t => t.map swp
          macroToMicro := md }) ∧
      Inv { g with
          nodes := g.nodes ++ [p], toIndices := ti, toPoints := ti.map fun t => t.map swp
          macroToMicro := md } ∧
      (g.toIndices = none → ti = none) ∧
      (∀ t, g.toIndices = some t → ∃ k, (∀ v ∈ PyDict.values t, v < k) ∧ k - 1 ∈ PyDict.values t ∧
        ti = some (t ++ [(p, k)])) ∧
      (m = false → md = g.macroToMicro) ∧
      (∀ d, m = true → g.macroToMicro = some d → md = some (macroAdd d p)) := by
  -- the macronode dictionary
  obtain ⟨md, hmd1, hmd2, hmd3⟩ : ∃ md : Option (List (Pt × List Pt)),
      (m = false → md = g.macroToMicro) ∧
      (∀ d, m = true → g.macroToMicro = some d → md = some (macroAdd d p)) ∧
      (∀ d, md = some d → (PyDict.keys d).Nodup ∧ (flat d).Nodup ∧
        ∀ q ∈ flat d, q ∈ g.nodes ++ [p]) := by
    cases m with
    | false =>
      refine ⟨g.macroToMicro, fun _ => rfl, by simp, fun d hd => ?_⟩
      obtain ⟨h1, h2, h3⟩ := h.mac d hd
      exact ⟨h1, h2, fun q hq => List.mem_append_left _ (h3 q hq)⟩
    | true =>
      obtain ⟨d, hd⟩ := Option.isSome_iff_exists.mp (hm rfl)
      obtain ⟨h1, h2, h3⟩ := h.mac d hd
      obtain ⟨s1, s2, s3⟩ := macroAdd_spec h1 p
      refine ⟨some (macroAdd d p), by simp, fun d' _ hd' => by rw [hd] at hd'; cases hd'; rfl, ?_⟩
      intro d' hd'
      cases hd'
      refine ⟨s1, s2.nodup_iff.mpr (List.nodup_cons.mpr ⟨fun hc => hp (h3 p hc), h2⟩), ?_⟩
      intro q hq
      rcases List.mem_cons.mp (s2.subset hq) with rfl | hq
      · simp
      · exact List.mem_append_left _ (h3 q hq)
  have hst : recordMicro (addNode g p) p m =
      { g with nodes := g.nodes ++ [p], macroToMicro := md } := by
    unfold recordMicro
    rw [addNode_new hp]
    cases m with
    | false => simp [hmd1 rfl]
    | true =>
      obtain ⟨d, hd⟩ := Option.isSome_iff_exists.mp (hm rfl)
      simp only [hmd2 d rfl hd, hd, if_true]
      rfl
  have hnd : (g.nodes ++ [p]).Nodup := by
    rw [List.nodup_append]
    refine ⟨h.nd, by simp, ?_⟩
    intro a ha b hb hab
    rw [List.mem_singleton] at hb
    exact hp (by rw [← hb, ← hab]; exact ha)
  have hends : ∀ e ∈ g.edges, e.1 ∈ g.nodes ++ [p] ∧ e.2.1 ∈ g.nodes ++ [p] := fun e he =>
    ⟨List.mem_append_left _ (h.ends e he).1, List.mem_append_left _ (h.ends e he).2⟩
  rcases h.idx with ⟨i1, i2⟩ | ⟨t, i1, i2, i3, i4⟩
  · refine ⟨none, md, ?_, ⟨hnd, hends, h.uniq, Or.inl ⟨rfl, rfl⟩, hmd3⟩, fun _ => rfl, ?_, hmd1, hmd2⟩
    · unfold updateAttributes
      simp only [hst, i1, i2]
      rfl
    · rw [i1]; intro t ht; cases ht
  · have hnn : g.nodes ≠ [] := by
      rcases hne with hc | hc
      · rw [i1] at hc; cases hc
      · exact hc
    have htn : PyDict.values t ≠ [] := by
      intro hc
      have : t = [] := by
        unfold PyDict.values at hc; exact List.map_eq_nil_iff.mp hc
      subst this
      exact hnn (List.Perm.nil_eq i3).symm
    obtain ⟨k, hk⟩ : ∃ k, (PyDict.values t).max? = some k := by
      cases hv : (PyDict.values t).max? with
      | some k => exact ⟨k, rfl⟩
      | none => rw [List.max?_eq_none_iff] at hv; exact absurd hv htn
    have hk' := (List.max?_eq_some_iff (xs := PyDict.values t)).mp hk
    have hpk : p ∉ PyDict.keys t := fun hc => hp (i3.subset hc)
    have hkk : k + 1 ∉ PyDict.values t := fun hc => absurd (hk'.2 _ hc) (by omega)
    refine ⟨some (t ++ [(p, k + 1)]), md, ?_, ⟨hnd, hends, h.uniq, Or.inr
      ⟨_, rfl, rfl, ?_, ?_⟩, hmd3⟩, ?_, ?_, hmd1, hmd2⟩
    · unfold updateAttributes
      simp only [hst, i1, i2, Option.getD_some, keys_swp, hk]
      rw [PyDict.set_of_not_mem _ hpk, PyDict.set_of_not_mem _ (by rw [keys_swp]; exact hkk)]
      simp [swp]
    · rw [PyDict.keys_append]; exact i3.append (by simp [PyDict.keys])
    · unfold PyDict.values
      rw [List.map_append, List.nodup_append]
      refine ⟨i4, by simp, ?_⟩
      intro a ha b hb hab
      simp only [List.map_cons, List.map_nil, List.mem_singleton] at hb
      exact hkk (by rw [← hb, ← hab]; exact ha)
    · rw [i1]; intro hc; cases hc
    · intro t' ht'
      rw [i1] at ht'; cases ht'
      exact ⟨k + 1, fun v hv => Nat.lt_succ_of_le (hk'.2 v hv), by simpa using hk'.1, rfl⟩

/-! ### remove_qubit -/

theorem removeNode_inv_parts {g : EG} (h : Inv g) (p : Pt) :
    (removeNode g p).nodes.Nodup ∧
    (∀ e ∈ (removeNode g p).edges, e.1 ∈ (removeNode g p).nodes ∧ e.2.1 ∈ (removeNode g p).nodes) ∧
    (∀ e ∈ (removeNode g p).edges, ∀ e' ∈ (removeNode g p).edges,
      joins e e'.1 e'.2.1 = true → e = e') := by
  unfold removeNode
  refine ⟨h.nd.filter _, ?_, ?_⟩
  · intro e he
    simp only [List.mem_filter, decide_eq_true_eq] at he ⊢
    exact ⟨⟨(h.ends e he.1).1, he.2.1⟩, ⟨(h.ends e he.1).2, he.2.2⟩⟩
  · intro e he e' he' hj
    exact h.uniq e (List.mem_filter.mp he).1 e' (List.mem_filter.mp he').1 hj

theorem macroRemove_spec {md : List (Pt × List Pt)} (hk : (PyDict.keys md).Nodup)
    (hf : (flat md).Nodup) (p : Pt) :
    (PyDict.keys (macroRemove md p)).Nodup ∧
    flat (macroRemove md p) = (flat md).filter (fun q => decide (q ≠ p)) ∧
    ((∀ e ∈ md, e.2 ≠ []) → ∀ e ∈ macroRemove md p, e.2 ≠ []) := by
  have hkey : (PyDict.keys (macroRemove md p)).Sublist (PyDict.keys md) := by
    unfold macroRemove PyDict.keys
    clear hk hf
    induction md with
    | nil => simp
    | cons e md ih =>
      rw [List.filterMap_cons]
      split
      · exact ih.trans (List.sublist_cons_self _ _)
      · rename_i b hb
        have : b.1 = e.1 := by
          dsimp only at hb
          split_ifs at hb <;> cases hb <;> rfl
        simp only [List.map_cons, this]
        exact ih.cons_cons _
  refine ⟨hk.sublist hkey, ?_, ?_⟩
  · clear hk hkey
    induction md with
    | nil => rfl
    | cons e md ih =>
      unfold flat at hf
      rw [List.flatMap_cons, List.nodup_append] at hf
      have ih := ih hf.2.1
      have hfe : e.2.erase p = e.2.filter (fun q => decide (q ≠ p)) := by
        rw [hf.1.erase_eq_filter]
        apply List.filter_congr
        intro x _; by_cases hx : x = p <;> simp [hx]
      unfold macroRemove flat at *
      rw [List.filterMap_cons, List.flatMap_cons, List.filter_append]
      by_cases hpe : p ∈ e.2
      · simp only [hpe, if_true]
        by_cases hemp : (e.2.erase p).isEmpty = true
        · simp only [hemp, if_true]
          rw [ih, ← hfe, List.isEmpty_iff.mp hemp, List.nil_append]
        · simp only [hemp]
          simp only [Bool.false_eq_true, if_false, List.flatMap_cons]
          rw [ih, ← hfe]
      · simp only [hpe, if_false, List.flatMap_cons]
        rw [ih]
        congr 1
        symm
        rw [List.filter_eq_self]
        intro a ha
        simp only [ne_eq, decide_not, Bool.not_eq_true', decide_eq_false_iff_not]
        exact fun hc => hpe (hc ▸ ha)
  · intro hne e he
    unfold macroRemove at he
    obtain ⟨e', he', heq⟩ := List.mem_filterMap.mp he
    dsimp only at heq
    split_ifs at heq with h1 h2
    · cases heq; simpa [List.isEmpty_iff] using h2
    · cases heq; exact hne _ he'

/-- Effect of `remove_qubit`: rejected with no change, or removes a node. -/
theorem removeQubit_spec {g : EG} (h : Inv g) (arg : RemArg) :
    (∃ e, removeQubit g arg = (.error e, g)) ∨
    ∃ p ti, p ∈ g.nodes ∧ (∀ q, arg = .tuple q → p = q) ∧
      removeQubit g arg = (.ok (), { removeNode g p with
        toIndices := ti, toPoints := ti.map fun t => t.map swp
        macroToMicro := g.macroToMicro.map fun m => macroRemove m p, adjMat := none }) ∧
      Inv { removeNode g p with
        toIndices := ti, toPoints := ti.map fun t => t.map swp
        macroToMicro := g.macroToMicro.map fun m => macroRemove m p, adjMat := none } ∧
      ti = g.toIndices.map fun t => PyDict.pop t p := by
  have hparts := fun p => removeNode_inv_parts h p
  have hmac : ∀ p, ∀ md, (g.macroToMicro.map fun m => macroRemove m p) = some md →
      (PyDict.keys md).Nodup ∧ (flat md).Nodup ∧ ∀ q ∈ flat md, q ∈ (removeNode g p).nodes := by
    intro p md hmd
    obtain ⟨m, hm, rfl⟩ := Option.map_eq_some_iff.mp hmd
    obtain ⟨h1, h2, h3⟩ := h.mac m hm
    obtain ⟨s1, s2, _⟩ := macroRemove_spec h1 h2 p
    refine ⟨s1, by rw [s2]; exact h2.filter _, ?_⟩
    intro q hq
    rw [s2] at hq
    simp only [removeNode, List.mem_filter] at hq ⊢
    exact ⟨h3 q hq.1, hq.2⟩
  rcases h.idx with ⟨i1, i2⟩ | ⟨t, i1, i2, i3, i4⟩
  · cases arg with
    | tuple p =>
      by_cases hp : p ∈ g.nodes
      · right
        refine ⟨p, none, hp, by simp, ?_, ⟨(hparts p).1, (hparts p).2.1, (hparts p).2.2,
          Or.inl ⟨rfl, rfl⟩, hmac p⟩, by rw [i1]; rfl⟩
        unfold removeQubit finishRemove removeNode
        simp only [i1, hp, if_true]
        simp [i2]
      · left
        exact ⟨.networkXError, by unfold removeQubit; simp only [i1, hp, if_false]⟩
    | int i => exact Or.inl ⟨.valueError, by unfold removeQubit; simp only [i1]⟩
    | other => exact Or.inl ⟨.valueError, by unfold removeQubit; simp only [i1]⟩
  · have hpop : ∀ p, (PyDict.values (PyDict.pop t p)).Nodup := fun p =>
      i4.sublist (List.Sublist.map _ List.filter_sublist)
    have main : ∀ p ∈ g.nodes, (match PyDict.get? t p with
        | none => ((.error .keyError : Except PyErr Unit), removeNode g p)
        | some _ => (.ok (), finishRemove { removeNode g p with
            toIndices := some (PyDict.pop t p)
            toPoints := some (PyDict.ofPairs ((PyDict.pop t p).map fun e => (e.2, e.1))) } p)) =
        (.ok (), { removeNode g p with
          toIndices := some (PyDict.pop t p)
          toPoints := (some (PyDict.pop t p)).map fun t => t.map swp
          macroToMicro := g.macroToMicro.map fun m => macroRemove m p, adjMat := none }) ∧
        Inv { removeNode g p with
          toIndices := some (PyDict.pop t p)
          toPoints := (some (PyDict.pop t p)).map fun t => t.map swp
          macroToMicro := g.macroToMicro.map fun m => macroRemove m p, adjMat := none } := by
      intro p hp
      have hpk : p ∈ PyDict.keys t := i3.mem_iff.mpr hp
      obtain ⟨v, hv⟩ := Option.isSome_iff_exists.mp ((PyDict.get?_isSome_iff t p).mpr hpk)
      have hof : PyDict.ofPairs ((PyDict.pop t p).map fun e => (e.2, e.1)) =
          (PyDict.pop t p).map swp :=
        PyDict.ofPairs_nodup _ (by
          change (PyDict.keys ((PyDict.pop t p).map swp)).Nodup
          rw [keys_swp]; exact hpop p)
      refine ⟨?_, (hparts p).1, (hparts p).2.1, (hparts p).2.2, Or.inr ⟨_, rfl, rfl, ?_, hpop p⟩,
        hmac p⟩
      · rw [hv]
        simp only [hof]
        rfl
      · have : PyDict.keys (PyDict.pop t p) = (PyDict.keys t).filter fun q => decide (q ≠ p) := by
          unfold PyDict.keys PyDict.pop
          rw [List.filter_map]; rfl
        rw [this]
        exact i3.filter _
    unfold removeQubit
    simp only [i1]
    cases arg with
    | other => exact Or.inl ⟨_, rfl⟩
    | tuple p =>
      by_cases hp : p ∈ g.nodes
      · right
        have := main p hp
        refine ⟨p, some (PyDict.pop t p), hp, by simp, ?_, this.2, rfl⟩
        simp only [hp, if_true]
        exact this.1
      · exact Or.inl ⟨.networkXError, by simp only [hp, if_false]⟩
    | int i =>
      simp only
      cases hx : (if 0 ≤ i then PyDict.get? (g.toPoints.getD []) i.toNat else none) with
      | none => exact Or.inl ⟨_, rfl⟩
      | some p =>
        by_cases hp : p ∈ g.nodes
        · right
          have := main p hp
          refine ⟨p, some (PyDict.pop t p), hp, by simp, ?_, this.2, rfl⟩
          simp only [hp, if_true]
          exact this.1
        · exact Or.inl ⟨.networkXError, by simp only [hp, if_false]⟩

/-! ### a whole `add_qubit` -/

theorem resolveQubit_fresh {g : EG} {q : QubitArg} {p : Pt} (h : resolveQubit g q = .ok p) :
    p ∉ g.nodes := by
  unfold resolveQubit at h
  split at h
  · split_ifs at h with hm; cases h; exact hm
  · cases h
  · split at h
    · rename_i x hx
      cases h
      intro hc
      unfold xMax at hx
      have := (List.max?_eq_some_iff.mp hx).2 (x + 1) (List.mem_map_of_mem (f := (·.1)) hc)
      linarith
    · cases h
  · cases h

theorem mapM_some_iff {A B : Type} (f : A → Option B) (l : List A) (r : List B) :
    l.mapM f = some r ↔ l.map f = r.map some := by
  induction l generalizing r with
  | nil => cases r <;> simp
  | cons a l ih =>
    rw [List.mapM_cons]
    cases ha : f a with
    | none => cases r <;> simp [ha]
    | some b =>
      cases r with
      | nil => cases h : l.mapM f <;> simp
      | cons c r =>
        simp only [List.map_cons, List.cons.injEq, ha, Option.some.injEq, ← ih r]
        cases h : l.mapM f <;> simp

/-- The neighbour positions given to `add_qubit` exist. -/
def nbsIn (g : EG) : Option Neighbors → Prop
  | some (.tuples l) => ∀ q ∈ l, q ∈ g.nodes
  | _ => True

/-- The part of the state that `addNeighbors` may change. -/
theorem addNeighbors_spec {g : EG} (h : Inv g) {p : Pt} (hp : p ∈ g.nodes) (nb : Option Neighbors)
    (hnb : nbsIn g nb) :
    Inv (addNeighbors g p nb).2 ∧ (addNeighbors g p nb).2.nodes = g.nodes ∧
    (addNeighbors g p nb).2.macroToMicro = g.macroToMicro ∧
    (addNeighbors g p nb).2.macronodes = g.macronodes ∧
    (addNeighbors g p nb).2.adjMat = g.adjMat ∧
    (∀ t, g.toIndices = some t → (addNeighbors g p nb).2.toIndices = some t) ∧
    (∀ l, nb = some (.tuples l) → (addNeighbors g p nb).1 = .ok () ∧
      (addNeighbors g p nb).2.toIndices = g.toIndices ∧
      (addNeighbors g p nb).2.toPoints = g.toPoints ∧
      ∀ a b, adj (addNeighbors g p nb).2 a b ↔ adj g a b ∨ (a ∈ l ∧ b = p) ∨ (a = p ∧ b ∈ l)) := by
  have hints : ∀ i l, (let x := addNeighbors g p (some (.ints (i :: l)))
      Inv x.2 ∧ x.2.nodes = g.nodes ∧ x.2.macroToMicro = g.macroToMicro ∧
      x.2.macronodes = g.macronodes ∧ x.2.adjMat = g.adjMat ∧
      (∀ t, g.toIndices = some t → x.2.toIndices = some t)) := by
    intro i l
    have fin : ∀ g' : EG, Inv g' → g'.nodes = g.nodes → g'.macroToMicro = g.macroToMicro →
        g'.macronodes = g.macronodes → g'.adjMat = g.adjMat →
        (∀ t, g.toIndices = some t → g'.toIndices = some t) →
        (let x := (match (i :: l).mapM fun i =>
            if 0 ≤ i then PyDict.get? (g'.toPoints.getD []) i.toNat else none with
          | some nbs => ((.ok () : Except PyErr Unit), addEdges g' p nbs)
          | none => (.error .keyError, g'));
          Inv x.2 ∧ x.2.nodes = g.nodes ∧ x.2.macroToMicro = g.macroToMicro ∧
          x.2.macronodes = g.macronodes ∧ x.2.adjMat = g.adjMat ∧
          (∀ t, g.toIndices = some t → x.2.toIndices = some t)) := by
      intro g' i' h1 h2 h3 h4 h5
      cases hx : (i :: l).mapM fun i =>
          if 0 ≤ i then PyDict.get? (g'.toPoints.getD []) i.toNat else none with
      | none => exact ⟨i', h1, h2, h3, h4, h5⟩
      | some nbs =>
        have hn : ∀ q ∈ nbs, q ∈ g'.nodes := by
          intro q hq
          rw [mapM_some_iff] at hx
          obtain ⟨j, hj, hjq⟩ := List.mem_map.mp (hx ▸ List.mem_map_of_mem (f := some) hq)
          split_ifs at hjq
          rcases i'.idx with ⟨a1, a2⟩ | ⟨t, a1, a2, a3, a4⟩
          · rw [a2] at hjq; simp [PyDict.get?_nil] at hjq
          · rw [a2] at hjq
            have hm := PyDict.get?_mem hjq
            obtain ⟨e, he, heq⟩ := List.mem_map.mp hm
            unfold swp at heq
            have : e.1 = q := (Prod.mk.inj heq).2
            exact a3.subset (by rw [← this]; exact List.mem_map_of_mem (f := (·.1)) he)
        obtain ⟨es, e1, e2, _⟩ := addEdges_spec i' (by rw [h1]; exact hp) nbs hn
        simp only [e1]
        exact ⟨e2, h1, h2, h3, h4, h5⟩
    unfold addNeighbors
    rcases h.idx with ⟨i1, i2⟩ | ⟨t, i1, i2, i3, i4⟩
    · simp only [i2]
      have hi := inv_indexGenerator h
      rcases indexGenerator_none h i1 with ⟨e, he, _⟩ | ⟨L, _, _, _, he⟩
      · rw [he]; exact ⟨h, rfl, rfl, rfl, rfl, fun _ ht => ht⟩
      · rw [he] at hi ⊢
        exact fin _ hi rfl rfl rfl rfl (by rw [i1]; intro t ht; cases ht)
    · simp only [i2]
      have := fin g h rfl rfl rfl rfl (fun _ ht => ht)
      rw [i2] at this
      exact this
  have htup : ∀ l, (∀ q ∈ l, q ∈ g.nodes) → (let x := addEdges g p l
      Inv x ∧ x.nodes = g.nodes ∧ x.macroToMicro = g.macroToMicro ∧
      x.macronodes = g.macronodes ∧ x.adjMat = g.adjMat ∧
      (∀ t, g.toIndices = some t → x.toIndices = some t) ∧
      x.toIndices = g.toIndices ∧ x.toPoints = g.toPoints ∧
      ∀ a b, adj x a b ↔ adj g a b ∨ (a ∈ l ∧ b = p) ∨ (a = p ∧ b ∈ l)) := by
    intro l hl
    obtain ⟨es, e1, e2, e3⟩ := addEdges_spec h hp l hl
    simp only [e1]
    exact ⟨e2, trivial, trivial, trivial, trivial, fun _ ht => ht, trivial, trivial, e3⟩
  match nb, hnb with
  | none, _ => exact ⟨h, rfl, rfl, rfl, rfl, fun _ ht => ht, by simp⟩
  | some .badType, _ => exact ⟨h, rfl, rfl, rfl, rfl, fun _ ht => ht, by simp⟩
  | some (.ints []), _ => exact ⟨h, rfl, rfl, rfl, rfl, fun _ ht => ht, by simp⟩
  | some (.ints (i :: l)), _ =>
    obtain ⟨a1, a2, a3, a4, a5, a6⟩ := hints i l
    exact ⟨a1, a2, a3, a4, a5, a6, by simp⟩
  | some (.tuples []), _ =>
    refine ⟨h, rfl, rfl, rfl, rfl, fun _ ht => ht, ?_⟩
    intro l hl
    simp only [Option.some.injEq, Neighbors.tuples.injEq] at hl
    subst hl
    exact ⟨rfl, rfl, rfl, fun a b => by simp [addNeighbors]⟩
  | some (.tuples (q :: l)), hnb =>
    obtain ⟨a1, a2, a3, a4, a5, a6, a7, a8, a9⟩ := htup (q :: l) hnb
    refine ⟨a1, a2, a3, a4, a5, a6, ?_⟩
    intro l' hl'
    simp only [Option.some.injEq, Neighbors.tuples.injEq] at hl'
    subst hl'
    exact ⟨rfl, a7, a8, a9⟩

/-- Effect of `add_qubit` on an admissible call. -/
theorem addQubit_spec {g : EG} (h : Inv g) (q : QubitArg) (nb : Option Neighbors) (m : Bool)
    (hnb : nbsIn g nb) (hne : g.toIndices = none ∨ g.nodes ≠ []) :
    (∃ e, addQubit g q nb m = (.error e, g)) ∨
    ∃ p, resolveQubit g q = .ok p ∧ p ∉ g.nodes ∧
      Inv (addQubit g q nb m).2 ∧ (addQubit g q nb m).2.nodes = g.nodes ++ [p] ∧
      (addQubit g q nb m).2.macronodes = g.macronodes ∧
      (m = false → (addQubit g q nb m).2.macroToMicro = g.macroToMicro) ∧
      (m = true → ∃ d, g.macroToMicro = some d ∧
        (addQubit g q nb m).2.macroToMicro = some (macroAdd d p)) ∧
      ((addQubit g q nb m).1 = .ok () → (addQubit g q nb m).2.adjMat = none) ∧
      (∀ t, g.toIndices = some t → ∃ k, (∀ v ∈ PyDict.values t, v < k) ∧ k - 1 ∈ PyDict.values t ∧
        (addQubit g q nb m).2.toIndices = some (t ++ [(p, k)])) ∧
      (∀ l, nb.getD (.tuples []) = .tuples l → (addQubit g q nb m).1 = .ok () ∧
        (g.toIndices = none → (addQubit g q nb m).2.toIndices = none) ∧
        ∀ a b, adj (addQubit g q nb m).2 a b ↔ adj g a b ∨ (a ∈ l ∧ b = p) ∨ (a = p ∧ b ∈ l)) := by
  unfold addQubit
  cases hr : resolveQubit g q with
  | error e => exact Or.inl ⟨e, rfl⟩
  | ok p =>
    simp only
    have hp := resolveQubit_fresh hr
    by_cases hm : (m && g.macroToMicro.isNone) = true
    · exact Or.inl ⟨.valueError, by rw [if_pos hm]⟩
    · right
      rw [if_neg hm]
      have hm' : m = true → g.macroToMicro.isSome := by
        intro hm1
        simp only [hm1, Bool.true_and] at hm
        cases hx : g.macroToMicro with
        | none => rw [hx] at hm; simp at hm
        | some _ => rfl
      obtain ⟨ti, md, u1, u2, u3, u4, u5, u6⟩ := updateAttributes_spec h hp hne m hm'
      have hnb' : nbsIn { g with
          nodes := g.nodes ++ [p], toIndices := ti, toPoints := ti.map fun t => t.map swp
          macroToMicro := md } nb := by
        unfold nbsIn at hnb ⊢
        split
        · rename_i l
          exact fun q hq => List.mem_append_left _ (hnb q hq)
        · trivial
      obtain ⟨n1, n2, n3, n4, n5, n6, n7⟩ := addNeighbors_spec u2 (p := p) (by simp) nb hnb'
      refine ⟨p, rfl, hp, ?_⟩
      rw [u1]
      simp only
      have n8 : nb = none → addNeighbors { g with
          nodes := g.nodes ++ [p], toIndices := ti, toPoints := ti.map fun t => t.map swp
          macroToMicro := md } p nb = (.ok (), { g with
          nodes := g.nodes ++ [p], toIndices := ti, toPoints := ti.map fun t => t.map swp
          macroToMicro := md }) := by rintro rfl; rfl
      generalize addNeighbors { g with
          nodes := g.nodes ++ [p], toIndices := ti, toPoints := ti.map fun t => t.map swp
          macroToMicro := md } p nb = r at *
      obtain ⟨r1, r2⟩ := r
      simp only at n1 n2 n3 n4 n5 n6 n7
      have htt : ∀ t, g.toIndices = some t → ∃ k, (∀ v ∈ PyDict.values t, v < k) ∧
          k - 1 ∈ PyDict.values t ∧ r2.toIndices = some (t ++ [(p, k)]) := by
        intro t ht
        obtain ⟨k, k1, k2, k3⟩ := u4 t ht
        exact ⟨k, k1, k2, n6 _ k3⟩
      have hmm : m = true → ∃ d, g.macroToMicro = some d ∧ r2.macroToMicro = some (macroAdd d p) := by
        intro hm1
        obtain ⟨d, hd⟩ := Option.isSome_iff_exists.mp (hm' hm1)
        exact ⟨d, hd, n3.trans (u6 d hm1 hd)⟩
      have hadj : ∀ l, nb.getD (.tuples []) = .tuples l → r1 = .ok () ∧
          (g.toIndices = none → r2.toIndices = none) ∧
          ∀ a b, adj r2 a b ↔ adj g a b ∨ (a ∈ l ∧ b = p) ∨ (a = p ∧ b ∈ l) := by
        intro l hl
        cases nb with
        | none =>
          simp only [Option.getD_none, Neighbors.tuples.injEq] at hl
          subst hl
          have := n8 rfl
          cases this
          refine ⟨rfl, u3, fun a b => ?_⟩
          simp [adj]
        | some x =>
          simp only [Option.getD_some] at hl
          subst hl
          obtain ⟨m1, m2, m3, m4⟩ := n7 l rfl
          exact ⟨m1, fun hn => m2.trans (u3 hn), m4⟩
      cases r1 with
      | error e =>
        exact ⟨n1, n2, n4, fun hm0 => n3.trans (u5 hm0), hmm, fun hc => by (cases hc), htt, hadj⟩
      | ok _ =>
        exact ⟨⟨n1.nd, n1.ends, n1.uniq, n1.idx, n1.mac⟩, n2, n4, fun hm0 => n3.trans (u5 hm0), hmm,
          fun _ => rfl, htt, hadj⟩

/-- The neighbours an accepted `add_qubit` resolves its argument to. -/
theorem addNeighbors_resolved {g : EG} (h : Inv g) {p : Pt} (hp : p ∈ g.nodes) (nb : Option Neighbors)
    (hnb : nbsIn g nb) (hok : (addNeighbors g p nb).1 = .ok ()) :
    ∃ (g' : EG) (nbs : List Pt), Inv g' ∧ g'.nodes = g.nodes ∧ g'.edges = g.edges ∧ (∀ q ∈ nbs, q ∈ g.nodes) ∧
      (addNeighbors g p nb).2 = addEdges g' p nbs ∧
      (∀ l, nb = some (.ints l) → l.map (fun i : ℤ => if 0 ≤ i then PyDict.get? (g'.toPoints.getD []) i.toNat else none) =
        nbs.map some) ∧ (∀ l, nb = some (.tuples l) → nbs = l) ∧ (nb = none → nbs = []) := by
  match nb, hnb with
  | none, _ => exact ⟨g, [], h, rfl, rfl, by simp, rfl, by simp, by simp, fun _ => rfl⟩
  | some .badType, _ => cases hok
  | some (.ints []), _ => exact ⟨g, [], h, rfl, rfl, by simp, rfl, by simp, by simp, by simp⟩
  | some (.tuples []), _ => exact ⟨g, [], h, rfl, rfl, by simp, rfl, by simp, by simp, by simp⟩
  | some (.tuples (q :: l)), hnb => exact ⟨g, q :: l, h, rfl, rfl, hnb, rfl, by simp, by simp, by simp⟩
  | some (.ints (i :: l)), _ =>
    have fin : ∀ g' : EG, Inv g' → g'.nodes = g.nodes → g'.edges = g.edges →
        (match (i :: l).mapM fun i : ℤ =>
            if 0 ≤ i then PyDict.get? (g'.toPoints.getD []) i.toNat else none with
          | some nbs => ((.ok () : Except PyErr Unit), addEdges g' p nbs)
          | none => (.error .keyError, g')).1 = .ok () →
        ∃ nbs, (∀ q ∈ nbs, q ∈ g.nodes) ∧
          (match (i :: l).mapM fun i : ℤ =>
              if 0 ≤ i then PyDict.get? (g'.toPoints.getD []) i.toNat else none with
            | some nbs => ((.ok () : Except PyErr Unit), addEdges g' p nbs)
            | none => (.error .keyError, g')).2 = addEdges g' p nbs ∧
          (i :: l).map (fun i : ℤ => if 0 ≤ i then PyDict.get? (g'.toPoints.getD []) i.toNat else none) = nbs.map some := by
      intro g' i' h1 h2 hok
      cases hx : (i :: l).mapM fun i : ℤ =>
          if 0 ≤ i then PyDict.get? (g'.toPoints.getD []) i.toNat else none with
      | none => rw [hx] at hok; cases hok
      | some nbs =>
        rw [mapM_some_iff] at hx
        refine ⟨nbs, ?_, rfl, hx⟩
        intro q hq
        obtain ⟨j, hj, hjq⟩ := List.mem_map.mp (hx ▸ List.mem_map_of_mem (f := some) hq)
        split_ifs at hjq
        rw [← h1]
        rcases i'.idx with ⟨a1, a2⟩ | ⟨t, a1, a2, a3, a4⟩
        · rw [a2] at hjq; simp [PyDict.get?_nil] at hjq
        · rw [a2] at hjq
          have hm := PyDict.get?_mem hjq
          obtain ⟨e, he, heq⟩ := List.mem_map.mp hm
          unfold swp at heq
          have : e.1 = q := (Prod.mk.inj heq).2
          exact a3.subset (by rw [← this]; exact List.mem_map_of_mem (f := (·.1)) he)
    unfold addNeighbors at hok ⊢
    rcases h.idx with ⟨i1, i2⟩ | ⟨t, i1, i2, i3, i4⟩
    · simp only [i2] at hok ⊢
      have hi := inv_indexGenerator h
      rcases indexGenerator_none h i1 with ⟨e, he, _⟩ | ⟨L, _, _, _, he⟩
      · rw [he] at hok; cases hok
      · rw [he] at hi hok ⊢
        obtain ⟨nbs, f1, f2, f3⟩ := fin _ hi rfl rfl hok
        refine ⟨_, nbs, hi, rfl, rfl, f1, f2, ?_, by simp, by simp⟩
        intro l' hl'
        simp only [Option.some.injEq, Neighbors.ints.injEq] at hl'
        subst hl'
        exact f3
    · have hg : g.toPoints = some (t.map swp) := i2
      have := fin g h rfl rfl
      simp only [hg] at hok this ⊢
      obtain ⟨nbs, f1, f2, f3⟩ := this hok
      refine ⟨g, nbs, h, rfl, rfl, f1, f2, ?_, by simp, by simp⟩
      intro l' hl'
      simp only [Option.some.injEq, Neighbors.ints.injEq] at hl'
      subst hl'
      rw [hg]
      exact f3

/-- Edges after an accepted `add_qubit`. -/
theorem addQubit_edges {g : EG} (h : Inv g) (q : QubitArg) (nb : Option Neighbors) (m : Bool)
    (hnb : nbsIn g nb) (hne : g.toIndices = none ∨ g.nodes ≠ []) (hok : (addQubit g q nb m).1 = .ok ()) :
    ∃ p nbs es, resolveQubit g q = .ok p ∧ (∀ x ∈ nbs, x ∈ g.nodes ++ [p]) ∧
      (addQubit g q nb m).2.edges = g.edges ++ es ∧ (∀ e ∈ es, e.1 ∈ nbs ∧ e.2 = (p, 1)) ∧
      (∀ a b, adj (addQubit g q nb m).2 a b ↔ adj g a b ∨ (a ∈ nbs ∧ b = p) ∨ (a = p ∧ b ∈ nbs)) ∧
      (∀ l, nb = some (.ints l) → l.map (fun i : ℤ => if 0 ≤ i then
          PyDict.get? ((addQubit g q nb m).2.toPoints.getD []) i.toNat else none) = nbs.map some) ∧
      (∀ l, nb = some (.tuples l) → nbs = l) ∧ (nb = none → nbs = []) := by
  unfold addQubit at hok ⊢
  cases hr : resolveQubit g q with
  | error e => rw [hr] at hok; cases hok
  | ok p =>
    rw [hr] at hok
    simp only at hok ⊢
    have hp := resolveQubit_fresh hr
    by_cases hm : (m && g.macroToMicro.isNone) = true
    · rw [if_pos hm] at hok; cases hok
    · rw [if_neg hm] at hok ⊢
      have hm' : m = true → g.macroToMicro.isSome := by
        intro hm1
        simp only [hm1, Bool.true_and] at hm
        cases hx : g.macroToMicro with
        | none => rw [hx] at hm; simp at hm
        | some _ => rfl
      obtain ⟨ti, md, u1, u2, u3, u4, u5, u6⟩ := updateAttributes_spec h hp hne m hm'
      have hnb' : nbsIn { g with
          nodes := g.nodes ++ [p], toIndices := ti, toPoints := ti.map fun t => t.map swp
          macroToMicro := md } nb := by
        unfold nbsIn at hnb ⊢
        split
        · rename_i l
          exact fun q hq => List.mem_append_left _ (hnb q hq)
        · trivial
      rw [u1] at hok ⊢
      simp only at hok ⊢
      have hres := addNeighbors_resolved u2 (p := p) (by simp) nb hnb'
      generalize addNeighbors { g with
          nodes := g.nodes ++ [p], toIndices := ti, toPoints := ti.map fun t => t.map swp
          macroToMicro := md } p nb = r at *
      obtain ⟨r1, r2⟩ := r
      cases r1 with
      | error e => cases hok
      | ok _ =>
        obtain ⟨g', nbs, a1, a2, a3, a4, a5, a6, a7, a8⟩ := hres rfl
        simp only at a2 a3 a4 a5
        have hp' : p ∈ g'.nodes := by rw [a2]; simp
        have hn' : ∀ x ∈ nbs, x ∈ g'.nodes := fun x hx => by rw [a2]; exact a4 x hx
        obtain ⟨es, e1, e2⟩ := addEdges_edges hp' nbs hn'
        obtain ⟨es', f1, f2, f3⟩ := addEdges_spec a1 hp' nbs hn'
        refine ⟨p, nbs, es, rfl, a4, ?_, e2, ?_, ?_, a7, a8⟩
        · simp only [a5, e1, a3]
        · intro a b
          have := f3 a b
          have ea : ∀ x y, adj g' x y ↔ adj g x y := fun x y => by unfold adj; rw [a3]
          rw [ea] at this
          rw [← this, a5, f1]
          rfl
        · intro l hl
          have hpts : r2.toPoints = g'.toPoints := by rw [a5, f1]
          simp only [hpts]
          exact a6 l hl

theorem inv_adjGenerator {g : EG} (h : Inv g) : Inv (adjGenerator g).2 := by
  have key : ∀ g', Inv g' → ∀ a, Inv { g' with adjMat := a } := fun g' h' a =>
    ⟨h'.nd, h'.ends, h'.uniq, h'.idx, h'.mac⟩
  unfold adjGenerator
  cases g.adjMat with
  | some a => exact h
  | none =>
    simp only
    have hi := inv_indexGenerator h
    have rest : ∀ g', Inv g' → Inv (match pointsInOrder (g'.toPoints.getD []) g'.nodes.length with
      | none => ((.error .keyError : Except PyErr (List (List ℤ))), g')
      | some pts =>
        if pts.all fun p => decide (p ∈ g'.nodes) then
          let a := pts.map fun u => pts.map fun v => weight g' u v
          (.ok a, { g' with adjMat := some a })
        else (.error .networkXError, g')).2 := by
      intro g' h'
      split
      · exact h'
      · dsimp only; split_ifs
        · exact key g' h' _
        · exact h'
    cases htp : g.toPoints with
    | some v =>
      exact rest g h
    | none =>
      simp only
      generalize indexGenerator g = r at hi
      obtain ⟨r1, r2⟩ := r
      cases r1 with
      | error e => exact hi
      | ok d => exact rest r2 hi

end Flamingpy.EGraph
