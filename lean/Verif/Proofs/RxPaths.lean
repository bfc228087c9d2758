import Verif.Proofs.RxStab
import Verif.Proofs.Libs
import Verif.Proofs.Mwpm

/-!
# Shortest paths in the rustworkx stabilizer graph
-/

namespace Flamingpy.SurfaceCode

open Flamingpy

variable {G : RxStab} {A : StabGraph} {w : V → ℚ} {D : List ((SNode × SNode) × EdgeDict)}

/-! ### The assumptions on the libraries can be met -/

theorem reach_finite (E : List (Sym2 ℕ × ℚ)) (s : ℕ) : {t | t ≠ s ∧ ∃ p, IsWalk E s t p}.Finite := by
  have hsub : {t | t ≠ s ∧ ∃ p, IsWalk E s t p} ⊆ {t | ∃ e ∈ PyDict.keys E, t ∈ e} := by
    rintro t ⟨hts, p, h1, h2, h3⟩
    obtain ⟨q, rfl⟩ : ∃ q, p = q ++ [t] := by
      obtain ⟨q, hq⟩ := List.getLast?_eq_some_iff.1 h2
      exact ⟨q, hq⟩
    rcases q.eq_nil_or_concat with rfl | ⟨q', a, rfl⟩
    · simp at h1
      exact absurd h1 hts
    · refine ⟨s(a, t), ?_, by simp⟩
      have : (q' ++ [a] ++ [t]) = q' ++ [a, t] := by simp
      rw [List.concat_eq_append, this, List.isChain_append] at h3
      simpa using h3.2.1
  refine Set.Finite.subset ?_ hsub
  have : {t | ∃ e ∈ PyDict.keys E, t ∈ e} = ⋃ e ∈ (PyDict.keys E).toFinset, {t | t ∈ e} := by
    ext t; simp
  rw [this]
  refine Set.Finite.biUnion (Finset.finite_toSet _) fun e _ => ?_
  induction e using Sym2.ind with
  | _ a b =>
    refine Set.Finite.subset (Set.toFinite {a, b}) fun t ht => ?_
    simpa [Sym2.mem_iff] using ht

open Classical in
/-- Shortest paths exist: the assumptions on the shortest-path routine of rustworkx can be met. -/
theorem rxPathLib_exists : Nonempty RxPathLib := by
  let path : List (Sym2 ℕ × ℚ) → ℕ → ℕ → List ℕ := fun E s t =>
    if h : (∀ e ∈ E, 0 ≤ e.2) ∧ ∃ p, IsWalk E s t p then choose (shortest_exists E h.1 s t h.2) else []
  have hkeys : ∀ E s, PyDict.keys ((reach_finite E s).toFinset.toList.map fun t => (t, path E s t)) = (reach_finite E s).toFinset.toList := by
    intro E s
    simp [PyDict.keys, Function.comp_def]
  refine ⟨⟨fun E s => (reach_finite E s).toFinset.toList.map fun t => (t, path E s t), ?_, ?_, ?_, ?_⟩⟩
  · intro E s
    rw [hkeys]
    exact Finset.nodup_toList _
  · intro E s
    rw [hkeys, Finset.mem_toList, Set.Finite.mem_toFinset]
    exact fun h => h.1 rfl
  · intro E s t p hE _ hm
    obtain ⟨t', ht', he⟩ := List.mem_map.1 hm
    rw [Finset.mem_toList, Set.Finite.mem_toFinset] at ht'
    obtain ⟨rfl, rfl⟩ := Prod.mk.inj he
    have hc : (∀ e ∈ E, 0 ≤ e.2) ∧ ∃ p, IsWalk E s t' p := ⟨hE, ht'.2⟩
    simp only [path]
    rw [dif_pos hc]
    exact choose_spec (shortest_exists E hc.1 s t' hc.2)
  · intro E s t p hE _ hp
    rw [hkeys, Finset.mem_toList, Set.Finite.mem_toFinset]
    by_cases hts : t = s
    · exact Or.inl hts
    · exact Or.inr ⟨hts, p, hp⟩

/-- Optimal matchings exist: the assumptions on the matching routine of rustworkx can be met. -/
theorem rxMatchLib_exists : Nonempty RxMatchLib := by
  refine ⟨⟨fun E => Classical.choose (best_matching (negE E)), ?_, ?_, ?_⟩⟩
  · intro E _
    exact isMatching_negE.1 (Classical.choose_spec (best_matching (negE E))).1
  · intro E M _ hM
    exact (Classical.choose_spec (best_matching (negE E))).2.1 M (isMatching_negE.2 hM)
  · intro E M _ hM hl
    have := (Classical.choose_spec (best_matching (negE E))).2.2 M (isMatching_negE.2 hM) hl
    rw [matchWeight_negE, matchWeight_negE] at this
    linarith

/-! ### Paths -/

theorem WRep.get_weight (h : WRep G A w D) {u v : SNode} (hu : u ∈ A.nodes) (hv : v ∈ A.nodes) (he : s(u, v) ∈ PyDict.keys A.edges) :
    ∃ d, G.base.graph.getEdgeData (A.nodes.idxOf u) (A.nodes.idxOf v) = some d ∧
      d.weight = some ((PyDict.get? (weightedEdges A w) s(u, v)).getD 0) := by
  rw [h.base, rxOf_edgeData h.over hu hv]
  rw [h.keys_eq, ← PyDict.get?_isSome_iff] at he
  obtain ⟨d, hd⟩ := Option.isSome_iff_exists.1 he
  refine ⟨d, hd, ?_⟩
  obtain ⟨e, he', hee⟩ := List.mem_map.1 (PyDict.get?_mem hd)
  have h2 : e.2 = d := (Prod.mk.inj hee).2
  rw [get?_weightedEdges, h.edges_sym, get?_mapVal, hd]
  have := h.weight e he'
  rw [h2] at this
  simpa using this

theorem WRep.pathWeight (h : WRep G A w D) (p : List SNode) (hp : ∀ a ∈ p, a ∈ A.nodes)
    (hc : p.IsChain fun a b => s(a, b) ∈ PyDict.keys A.edges) :
    rxsPathWeight G (p.map A.nodes.idxOf) = some (pathLength .rustworkx (weightedEdges A w) p) := by
  induction p with
  | nil => rfl
  | cons a p ih =>
    cases p with
    | nil => rfl
    | cons b p =>
      rw [List.isChain_cons_cons] at hc
      obtain ⟨d, h1, h2⟩ := h.get_weight (hp a (by simp)) (hp b (by simp)) hc.1
      have := ih (fun c hc => hp c (by simp [hc])) hc.2
      rw [List.map_cons] at this
      rw [List.map_cons, List.map_cons, rxsPathWeight, h1]
      simp only [Option.bind_eq_bind, Option.bind_some, h2, this]
      rfl

theorem list_choose {δ ε : Type} {f : ε → δ} {P : ε → Prop} (l : List δ) (h : ∀ x ∈ l, ∃ y, P y ∧ x = f y) :
    ∃ m : List ε, l = m.map f ∧ ∀ y ∈ m, P y := by
  induction l with
  | nil => exact ⟨[], rfl, by simp⟩
  | cons x l ih =>
    obtain ⟨y, hy, rfl⟩ := h x (by simp)
    obtain ⟨m, rfl, hm⟩ := ih fun x hx => h x (by simp [hx])
    refine ⟨y :: m, rfl, ?_⟩
    simpa [hy] using hm

theorem mapM_some2 {δ ε φ : Type} {f : δ → Option φ} {g : ε → δ} {k : ε → φ} (l : List ε) (h : ∀ a ∈ l, f (g a) = some (k a)) :
    (l.map g).mapM f = some (l.map k) := by
  induction l with
  | nil => rfl
  | cons a l ih =>
    rw [List.map_cons, List.mapM_cons, h a (by simp), ih fun b hb => h b (by simp [hb])]
    rfl

theorem get?_idxKeys {α β γ : Type} [DecidableEq α] {L : List α} (T : List (α × β)) (f : β → γ) (hT : ∀ x ∈ T, x.1 ∈ L) {t : α} :
    PyDict.get? (T.map fun x => (L.idxOf x.1, f x.2)) (L.idxOf t) = (PyDict.get? T t).map f := by
  induction T with
  | nil => rfl
  | cons x T ih =>
    rw [List.map_cons, PyDict.get?_cons, PyDict.get?_cons, ih fun y hy => hT y (by simp [hy])]
    have : L.idxOf x.1 = L.idxOf t ↔ x.1 = t := List.idxOf_inj (hT x (by simp))
    by_cases hc : x.1 = t
    · simp [hc]
    · simp [hc, this]

/-- `_shortest_paths_from` for a part `E` of the edges. -/
theorem WRep.shortest (h : WRep G A w D) (rl : RxPathLib) {graph : PyGraph SNode EdgeDict} {E : List (Sym2 SNode × ℚ)}
    (hg : (graph.edges.mapM fun e => e.2.weight.map fun x => (s(e.1.1, e.1.2), x)) = some (ixE A.nodes E))
    (hE : ∀ e ∈ E, 0 ≤ e.2) (hn : (PyDict.keys E).Nodup) (hs : ∀ k ∈ PyDict.keys E, k ∈ PyDict.keys A.edges)
    {lib : PathLib} {s : SNode} (hsn : s ∈ A.nodes)
    (hlib : ∀ t ∈ A.nodes, lib.find E s t = (PyDict.get? (rl.run (ixE A.nodes E) (A.nodes.idxOf s)) (A.nodes.idxOf t)).bind fun q =>
      q.mapM fun i => A.nodes[i]?) :
    ∃ r, rxsShortest rl G graph s = some r ∧ ∀ t ∈ A.nodes, PyDict.get? r.2 t = lib.find E s t ∧
      PyDict.get? r.1 t = (lib.find E s t).map (pathLength .rustworkx (weightedEdges A w)) := by
  have hover : ∀ e ∈ E, Over A.nodes e.1 := by
    intro e he
    have := hs e.1 (List.mem_map_of_mem he)
    obtain ⟨k, x⟩ := e
    induction k using Sym2.ind with
    | _ a b => exact over_mk.2 (h.edge_over this)
  have hixE : ∀ e ∈ ixE A.nodes E, 0 ≤ e.2 := by
    intro e he
    obtain ⟨e', he', rfl⟩ := List.mem_map.1 he
    exact hE e' he'
  have hixn := keys_ixE_nodup hover hn
  obtain ⟨T, hT, hT'⟩ := list_choose (f := fun x : SNode × List SNode => (A.nodes.idxOf x.1, x.2.map A.nodes.idxOf))
    (P := fun x => x.1 ∈ A.nodes ∧ (∀ a ∈ x.2, a ∈ A.nodes) ∧ IsWalk E s x.1 x.2) (rl.run (ixE A.nodes E) (A.nodes.idxOf s)) (by
    rintro ⟨j, q⟩ hm
    obtain ⟨t, p, h1, h2, h3, h4, h5⟩ := isWalk_of_ixE' hover hsn (rl.sound _ _ _ _ hixE hixn hm).1
    exact ⟨(t, p), ⟨h1, h4, h5⟩, by rw [h2, h3]⟩)
  have hkT : (PyDict.keys T).Nodup := by
    have := rl.nodup (ixE A.nodes E) (A.nodes.idxOf s)
    rw [hT] at this
    have hk : PyDict.keys (T.map fun x => (A.nodes.idxOf x.1, x.2.map A.nodes.idxOf)) = (PyDict.keys T).map A.nodes.idxOf := by
      simp [PyDict.keys, Function.comp_def]
    rw [hk] at this
    exact List.Nodup.of_map _ this
  have hi : PyDict.get? G.base.nodeToIndex s = some (A.nodes.idxOf s) := by rw [h.base]; exact rxOf_index hsn
  have hix : ∀ i, PyDict.get? G.base.indexToNode i = A.nodes[i]? := by intro i; rw [h.base]; exact rxOf_node i
  have hkT' : (PyDict.keys (T.map fun x => (x.1, pathLength .rustworkx (weightedEdges A w) x.2))).Nodup := by
    have hk : PyDict.keys (T.map fun x => (x.1, pathLength .rustworkx (weightedEdges A w) x.2)) = PyDict.keys T := by
      simp [PyDict.keys, Function.comp_def]
    rw [hk]; exact hkT
  have e1 : (T.map fun x => (A.nodes.idxOf x.1, x.2.map A.nodes.idxOf)).mapM (fun p => do
      let t ← A.nodes[p.1]?
      let x ← rxsPathWeight G p.2
      pure (t, x)) = some (T.map fun x => (x.1, pathLength .rustworkx (weightedEdges A w) x.2)) := by
    refine mapM_some2 T fun x hx => ?_
    obtain ⟨h1, h2, h3⟩ := hT' x hx
    simp only [getElem?_idxOf' h1, Option.bind_eq_bind, Option.bind_some]
    rw [h.pathWeight x.2 h2 (h3.2.2.imp fun a b hab => hs _ hab)]
    rfl
  have e2 : (T.map fun x => (A.nodes.idxOf x.1, x.2.map A.nodes.idxOf)).mapM (fun p => do
      let t ← A.nodes[p.1]?
      let l ← p.2.mapM fun i => A.nodes[i]?
      pure (t, l)) = some T := by
    refine (mapM_some2 (k := id) T fun x hx => ?_).trans (by simp)
    obtain ⟨h1, h2, h3⟩ := hT' x hx
    simp only [getElem?_idxOf' h1, Option.bind_eq_bind, Option.bind_some, mapM_idx h2]
    rfl
  refine ⟨(T.map fun x => (x.1, pathLength .rustworkx (weightedEdges A w) x.2), T), ?_, fun t ht => ?_⟩
  · unfold rxsShortest
    simp only [hi, hg, hix, hT, Option.bind_eq_bind, Option.bind_some] at e1 e2 ⊢
    rw [e1, Option.bind_some, e2, Option.bind_some, PyDict.ofPairs_nodup _ hkT, PyDict.ofPairs_nodup _ hkT']
    rfl
  · have hf : lib.find E s t = PyDict.get? T t := by
      rw [hlib t ht, hT, get?_idxKeys T _ (fun x hx => (hT' x hx).1)]
      cases hgt : PyDict.get? T t with
      | none => rfl
      | some p =>
        simp only [Option.map_some, Option.bind_some]
        exact mapM_idx (hT' _ (PyDict.get?_mem hgt)).2.1
    rw [hf]
    exact ⟨rfl, get?_mapVal _ T t⟩

/-! ### The two graphs -/

theorem WRep.mapM_weights (h : WRep G A w D) (D' : List ((SNode × SNode) × EdgeDict)) (hD : ∀ e ∈ D', e ∈ D) :
    ((D'.map fun e => ((A.nodes.idxOf e.1.1, A.nodes.idxOf e.1.2), e.2)).mapM fun e => e.2.weight.map fun x => (s(e.1.1, e.1.2), x)) =
      some (ixE A.nodes ((symOf D').map fun e => (e.1, cvWeight w e.2.commonVertex))) := by
  rw [mapM_some2 (k := fun e => (s(A.nodes.idxOf e.1.1, A.nodes.idxOf e.1.2), cvWeight w e.2.commonVertex)) D' fun e he => ?_]
  · congr 1
    unfold ixE symOf
    rw [List.map_map, List.map_map]
    rfl
  · rw [h.weight e (hD e he)]
    rfl

theorem Rep.weighted (h : Rep G A D) (w : V → ℚ) : weightedEdges A w = (symOf D).map fun e => (e.1, cvWeight w e.2.commonVertex) := by
  unfold weightedEdges
  rw [h.edges_sym, List.map_map]
  refine List.map_congr_left fun e _ => ?_
  simp only [Function.comp]
  cases e.2.commonVertex <;> rfl

theorem WRep.full (h : WRep G A w D) :
    (G.base.graph.edges.mapM fun e => e.2.weight.map fun x => (s(e.1.1, e.1.2), x)) = some (ixE A.nodes (weightedEdges A w)) := by
  rw [h.weighted, h.base]
  exact h.mapM_weights D fun e he => he

theorem WRep.without (h : WRep G A w D) {l : List SNode} (hl : A.nodes = .low :: .high :: l) :
    ((G.base.graph.removeNodesFrom [0, 1]).edges.mapM fun e => e.2.weight.map fun x => (s(e.1.1, e.1.2), x)) =
      some (ixE A.nodes (withoutConnectors (weightedEdges A w))) := by
  have hix : ∀ u ∈ A.nodes, A.nodes.idxOf u ∉ [0, 1] ↔ SNode.low ≠ u ∧ SNode.high ≠ u := by
    intro u hu
    have h0 : A.nodes.idxOf SNode.low = 0 := by rw [hl]; rfl
    have h1 : A.nodes.idxOf SNode.high = 1 := by rw [hl]; rfl
    have hlow : SNode.low ∈ A.nodes := by rw [hl]; simp
    have hhigh : SNode.high ∈ A.nodes := by rw [hl]; simp
    have i0 := List.idxOf_inj (l := A.nodes) (y := u) hlow
    have i1 := List.idxOf_inj (l := A.nodes) (y := u) hhigh
    rw [h0] at i0
    rw [h1] at i1
    simp only [List.mem_cons, List.not_mem_nil, or_false, not_or, ← i0, ← i1, ne_eq, eq_comm]
  have hfilter : (G.base.graph.removeNodesFrom [0, 1]).edges = ((D.filter fun e => decide (SNode.low ∉ s(e.1.1, e.1.2) ∧ SNode.high ∉ s(e.1.1, e.1.2))).map
      fun e => ((A.nodes.idxOf e.1.1, A.nodes.idxOf e.1.2), e.2)) := by
    rw [h.base]
    change (D.map fun e => ((A.nodes.idxOf e.1.1, A.nodes.idxOf e.1.2), e.2)).filter _ = _
    rw [List.filter_map]
    congr 1
    refine List.filter_congr fun e he => ?_
    obtain ⟨o1, o2⟩ := h.over e he
    simp only [Function.comp, hix _ o1, hix _ o2, Sym2.mem_iff, not_or]
    congr 1
    rw [eq_iff_iff]
    tauto
  rw [hfilter, h.mapM_weights _ fun e he => (List.mem_filter.1 he).1, h.weighted]
  congr 2
  unfold withoutConnectors symOf
  rw [List.filter_map, List.filter_map, List.map_map, List.map_map]
  rfl

/-- `shortest_paths_without_high_low`, `shortest_paths_from_low`, `shortest_paths_from_high`. -/
theorem WRep.paths (h : WRep G A w D) {l : List SNode} (hl : A.nodes = .low :: .high :: l) (hE : ∀ e ∈ weightedEdges A w, 0 ≤ e.2)
    (hn : (PyDict.keys A.edges).Nodup) (rl : RxPathLib) : ∃ lib : PathLib, ∀ s ∈ A.nodes,
      (∃ r, rxsWithout rl G s = some r ∧ ∀ t ∈ A.nodes, PyDict.get? r.2 t = lib.find (withoutConnectors (weightedEdges A w)) s t ∧
        PyDict.get? r.1 t = (lib.find (withoutConnectors (weightedEdges A w)) s t).map (pathLength .rustworkx (weightedEdges A w))) ∧
      (∃ r, rxsFrom rl G s = some r ∧ ∀ t ∈ A.nodes, PyDict.get? r.2 t = lib.find (weightedEdges A w) s t ∧
        PyDict.get? r.1 t = (lib.find (weightedEdges A w) s t).map (pathLength .rustworkx (weightedEdges A w))) := by
  obtain ⟨lib₀⟩ := pathLib_exists
  obtain ⟨lib, hlib⟩ := pathLib_of rl lib₀ A.nodes
  have hk : PyDict.keys (weightedEdges A w) = PyDict.keys A.edges := keys_weightedEdges A w
  have hover : ∀ e ∈ weightedEdges A w, Over A.nodes e.1 := by
    intro e he
    have : e.1 ∈ PyDict.keys A.edges := by rw [← hk]; exact List.mem_map_of_mem he
    obtain ⟨k, x⟩ := e
    induction k using Sym2.ind with
    | _ a b => exact over_mk.2 (h.edge_over this)
  have hsub : ∀ k ∈ PyDict.keys (withoutConnectors (weightedEdges A w)), k ∈ PyDict.keys A.edges := by
    intro k hk'
    rw [← hk]
    exact (mem_keys_withoutConnectors.1 hk').1
  have hnw : (PyDict.keys (withoutConnectors (weightedEdges A w))).Nodup := by
    have : (PyDict.keys (withoutConnectors (weightedEdges A w))).Sublist (PyDict.keys (weightedEdges A w)) :=
      (List.filter_sublist).map _
    exact this.nodup (by rw [hk]; exact hn)
  refine ⟨lib, fun s hs => ⟨?_, ?_⟩⟩
  · exact h.shortest rl (h.without hl) (withoutConnectors_nonneg hE) hnw hsub hs fun t ht =>
      hlib _ (fun e he => hover e (List.mem_filter.1 he).1) hnw s hs t ht
  · exact h.shortest rl h.full hE (by rw [hk]; exact hn) (fun k hk' => by rw [← hk]; exact hk') hs fun t ht =>
      hlib _ hover (by rw [hk]; exact hn) s hs t ht

end Flamingpy.SurfaceCode
