import Verif.Props.Drawing
import Verif.Props.Readouts

/-!
# C83: the drawn graphs and labels
-/

namespace Flamingpy.Viz

open Flamingpy Flamingpy.SurfaceCode Flamingpy.UnionFind

/-! ### C83 -/

/-- Specification: a drawing of the decoder graph of a code shows each stabilizer and each boundary point once, and exactly the edges that stand for
a qubit, each once and with the weight of its qubit. -/
structure Shows (code : Code) (sp : SetPop) (w : V → ℚ) (nodes : List SNode) (edges : List (Sym2 SNode × ℚ)) : Prop where
  nodes_once : nodes.Nodup
  nodes : ∀ n, n ∈ nodes ↔ (∃ k, k < code.stabs.length ∧ n = .stab k) ∨ ∃ p ∈ code.boundPoints, n = .pt p
  edges_once : (PyDict.keys edges).Nodup
  edges : ∀ u v r, (s(u, v), r) ∈ edges ↔ ∃ x, sgEdgeData (stabGraph .networkx sp code) u v = some (some x) ∧ r = w x

theorem code_nodes_nodup {code : Code} (h : IsCode code) (bk : Backend) (sp : SetPop) : (stabGraph bk sp code).nodes.Nodup :=
  (wf_code h bk sp (fun _ => 0) fun _ => false).nodup

/-- C83.  With the networkx backend, also if the graph has been drawn before. -/
theorem C83_networkx {code : Code} (h : IsCode code) (sp : SetPop) (w : V → ℚ) {G : StabGraph}
    (hG : G = stabGraph .networkx sp code ∨ G = afterDraw .networkx (stabGraph .networkx sp code)) :
    Shows code sp w (drawnNx G w).1 (drawnNx G w).2 := by
  have e : dropConnectors G = dropConnectors (stabGraph .networkx sp code) := by
    rcases hG with rfl | rfl
    · rfl
    · exact drop_drop _
  unfold drawnNx
  rw [e]
  have hk : PyDict.keys (weightedEdges (dropConnectors (stabGraph .networkx sp code)) w) =
      (PyDict.keys (stabGraph .networkx sp code).edges).filter fun e => decide (SNode.low ∉ e ∧ SNode.high ∉ e) := by
    rw [keys_drop]
    unfold realE
    rw [keys_weightedEdges]
  have hkn : (PyDict.keys (weightedEdges (dropConnectors (stabGraph .networkx sp code)) w)).Nodup := by
    rw [hk]
    exact ((C28_backends h sp).2 .networkx).filter _
  refine ⟨(code_nodes_nodup h .networkx sp).filter _, fun n => ?_, hkn, fun u v r => ?_⟩
  · show n ∈ List.filter _ _ ↔ _
    rw [List.mem_filter, nodes_eq h]
    cases n with
    | low => simp [isConnector]
    | high => simp [isConnector]
    | stab k => simp [isConnector]
    | pt p => simp [isConnector]
  · rw [← PyDict.get?_iff_mem hkn, drop_weighted]
    unfold sgEdgeData
    by_cases hc : SNode.low ∉ s(u, v) ∧ SNode.high ∉ s(u, v)
    · rw [get?_filter_key (fun e => decide (SNode.low ∉ e ∧ SNode.high ∉ e)) _ (by simpa using hc), get?_weightedEdges]
      constructor
      · intro hr
        obtain ⟨cv, hcv, hr⟩ := Option.map_eq_some_iff.1 hr
        cases cv with
        | some x => exact ⟨x, hcv, hr.symm⟩
        | none =>
          exfalso
          rcases (C28_connectors h .networkx sp (PyDict.get?_mem hcv)).1 rfl with h1 | h1
          · exact hc.1 h1
          · exact hc.2 h1
      · rintro ⟨x, hx, rfl⟩
        rw [hx]
        rfl
    · constructor
      · intro hr
        have := (List.mem_filter.1 (PyDict.get?_mem hr)).2
        exact absurd (by simpa using this) hc
      · rintro ⟨x, hx, -⟩
        exfalso
        have := (C28_connectors h .networkx sp (PyDict.get?_mem hx)).not.1 (by simp)
        exact hc (not_or.1 this)

theorem nxAddNode_nodup {N : NxStab} (h : N.nodes.Nodup) (n : SNode) : (nxAddNode N n).nodes.Nodup ∧ (nxAddNode N n).edges = N.edges := by
  unfold nxAddNode
  split_ifs with hc
  · exact ⟨h, rfl⟩
  · refine ⟨?_, rfl⟩
    simp only [List.nodup_append, List.nodup_singleton, and_true, true_and]
    refine ⟨h, ?_⟩
    rintro a ha b hb rfl
    rw [List.mem_singleton] at hb
    exact hc (hb ▸ ha)

/-- The converted graph lists nodes and edges once. -/
theorem toNx_nodup {G : RxStab} {N : NxStab} (h : rxsToNx G = some N) : N.nodes.Nodup ∧ (PyDict.keys N.edges).Nodup := by
  unfold rxsToNx at h
  obtain ⟨es, -, h⟩ := Option.bind_eq_some_iff.1 h
  refine foldlM_inv _ (fun N : NxStab => N.nodes.Nodup ∧ (PyDict.keys N.edges).Nodup) (fun N e N' hN hf => ?_) es _ _ ?_ h
  · obtain ⟨d, -, hf⟩ := Option.bind_eq_some_iff.1 hf
    have h1 := nxAddNode_nodup hN.1 e.1
    have h2 := nxAddNode_nodup h1.1 e.2
    have h3 : (nxAddEdge N e.1 e.2 d.commonVertex).nodes.Nodup ∧ (PyDict.keys (nxAddEdge N e.1 e.2 d.commonVertex).edges).Nodup := by
      unfold nxAddEdge
      refine ⟨h2.1, PyDict.keys_set_nodup _ _ ?_⟩
      rw [h2.2, h1.2]
      exact hN.2
    cases hd : d.weight with
    | none =>
      rw [hd] at hf
      simp only [Option.some.injEq] at hf
      rw [← hf]
      exact h3
    | some x =>
      rw [hd] at hf
      simp only at hf
      unfold nxSetWeight at hf
      obtain ⟨d', -, hf⟩ := Option.bind_eq_some_iff.1 hf
      simp only [pure, Option.some.injEq] at hf
      rw [← hf]
      exact ⟨h3.1, PyDict.keys_set_nodup _ _ h3.2⟩
  · unfold nxEmpty nxAddNode
    decide

/-- C83.  With the rustworkx backend. -/
theorem C83_rustworkx {code : Code} (h : IsCode code) (sp : SetPop) (w : V → ℚ) :
    ∃ G r, rxStabGraph sp code = some G ∧ drawnRx G w = some r ∧ Shows code sp w r.1 r.2 := by
  obtain ⟨G, G', N, h1, h2, h3, h4, h5, -⟩ := C72_code h sp [] w
  rw [List.nil_append] at h2
  have h2' : rxsAssign w G = some G' := by simpa using h2
  obtain ⟨hnn, hne⟩ := toNx_nodup h3
  have hkeep : ∀ u v, (SNode.low ∉ s(u, v) ∧ SNode.high ∉ s(u, v)) → ∀ d, PyDict.get? N.edges s(u, v) = some d →
      ∃ x, sgEdgeData (stabGraph .networkx sp code) u v = some (some x) ∧ d.weight = some (w x) := by
    intro u v hc d hd
    rw [h5, ← (C28_backends h sp).1] at hd
    obtain ⟨cv, hcv, rfl⟩ := Option.map_eq_some_iff.1 hd
    cases cv with
    | some x => exact ⟨x, hcv, rfl⟩
    | none =>
      exfalso
      rcases (C28_connectors h .networkx sp (PyDict.get?_mem hcv)).1 rfl with h1 | h1
      · exact hc.1 h1
      · exact hc.2 h1
  set es := (dropConnectorsNx N).edges with hes
  have hesk : PyDict.keys es = (PyDict.keys N.edges).filter fun e => decide (SNode.low ∉ e ∧ SNode.high ∉ e) := by
    rw [hes]
    exact keys_filter (fun e => decide (SNode.low ∉ e ∧ SNode.high ∉ e)) _
  have hesn : (PyDict.keys es).Nodup := by rw [hesk]; exact hne.filter _
  have hmap : es.mapM (fun e => e.2.weight.map fun x => (e.1, x)) = some (es.map fun e => (e.1, e.2.weight.getD 0)) := by
    refine mapM_getD _ _ _ fun e he => ?_
    obtain ⟨e, d⟩ := e
    induction e using Sym2.ind with
    | _ u v =>
      obtain ⟨hm, hc⟩ := List.mem_filter.1 he
      obtain ⟨x, -, hx⟩ := hkeep u v (by simpa using hc) d ((PyDict.get?_iff_mem hne _ _).2 hm)
      simp [hx]
  refine ⟨G, ((dropConnectorsNx N).nodes, es.map fun e => (e.1, e.2.weight.getD 0)), h1, ?_, ?_⟩
  · unfold drawnRx
    rw [h2', Option.bind_eq_bind, Option.bind_some, h3, Option.bind_eq_bind, Option.bind_some, hmap]
    rfl
  · have hkk : PyDict.keys (es.map fun e => (e.1, e.2.weight.getD 0)) = PyDict.keys es := by
      unfold PyDict.keys
      rw [List.map_map]
      rfl
    refine ⟨hnn.filter _, fun n => ?_, by rw [hkk]; exact hesn, fun u v r => ?_⟩
    · show n ∈ List.filter _ _ ↔ _
      rw [List.mem_filter, h4]
      obtain ⟨G2, G2', D, k1, k2, k3⟩ := h.rx sp [] w
      obtain rfl : G2 = G := Option.some.inj (k1.symm.trans h1)
      obtain rfl : G2' = G' := Option.some.inj (k2.symm.trans h2)
      rw [k3.toRep.nodes_eq, h.rx_nodes sp]
      cases n with
      | low => simp [isConnector]
      | high => simp [isConnector]
      | stab k => simp [isConnector]
      | pt p => simp [isConnector]
    · rw [List.mem_map]
      constructor
      · rintro ⟨⟨e, d⟩, he, e1⟩
        obtain ⟨rfl, rfl⟩ := Prod.mk.inj e1
        obtain ⟨hm, hc⟩ := List.mem_filter.1 he
        obtain ⟨x, h6, hx⟩ := hkeep u v (by simpa using hc) d ((PyDict.get?_iff_mem hne _ _).2 hm)
        exact ⟨x, h6, by simp [hx]⟩
      · rintro ⟨x, hx, rfl⟩
        refine ⟨(s(u, v), ⟨some x, some (w x)⟩), List.mem_filter.2 ⟨?_, ?_⟩, rfl⟩
        · rw [← PyDict.get?_iff_mem hne, h5, ← (C28_backends h sp).1, hx]
          rfl
        · have := (C28_connectors h .networkx sp (PyDict.get?_mem hx)).not.1 (by simp)
          simpa using not_or.1 this

theorem get?_zipIdx_eq {α : Type} [DecidableEq α] {l : List α} (hl : l.Nodup) {j : ℕ} (hj : j < l.length) (n : ℕ) :
    PyDict.get? (l.zipIdx n) l[j] = some (n + j) := by
  induction l generalizing n j with
  | nil => simp at hj
  | cons a l ih =>
    rw [List.zipIdx_cons, PyDict.get?_cons]
    cases j with
    | zero => simp
    | succ j =>
      rw [List.nodup_cons] at hl
      have hj' : j < l.length := by simpa using hj
      have : a ≠ (a :: l)[j + 1] := fun e => hl.1 (by rw [List.getElem_cons_succ] at e; rw [e]; exact List.getElem_mem hj')
      rw [if_neg this]
      have h2 := ih hl.2 hj' (n + 1)
      rw [show n + 1 + j = n + (j + 1) by omega] at h2
      exact h2

theorem get?_zipIdx_none {α : Type} [DecidableEq α] {l : List α} {a : α} (h : a ∉ l) (n : ℕ) : PyDict.get? (l.zipIdx n) a = none := by
  rw [PyDict.get?_eq_none]
  intro hc
  obtain ⟨⟨b, i⟩, hb, rfl⟩ := List.mem_map.1 hc
  exact h (List.fst_mem_of_mem_zipIdx hb)

/-- C83.  At the first drawing the labels are the positions of the stabilizers, continued by those of the boundary points; connectors have none. -/
theorem C83_labels {code : Code} (h : IsCode code) (bk : Backend) (sp : SetPop) :
    (∀ k < code.stabs.length, PyDict.get? (stabLabels (stabGraph bk sp code)) (.stab k) = some k) ∧
    (∀ j (hj : j < code.boundPoints.length), PyDict.get? (stabLabels (stabGraph bk sp code)) (.pt code.boundPoints[j]) = some (code.stabs.length + j)) ∧
    PyDict.get? (stabLabels (stabGraph bk sp code)) .low = none ∧ PyDict.get? (stabLabels (stabGraph bk sp code)) .high = none := by
  have hl : stabLabels (stabGraph bk sp code) =
      ((List.range code.stabs.length).map SNode.stab ++ code.boundPoints.map SNode.pt).zipIdx := by
    unfold stabLabels
    rw [nodes_eq h]
    simp
  have hnd : ((List.range code.stabs.length).map SNode.stab ++ code.boundPoints.map SNode.pt).Nodup := by
    have := code_nodes_nodup h bk sp
    rw [nodes_eq h, List.append_assoc] at this
    exact (List.nodup_append.1 this).2.1
  rw [hl]
  refine ⟨fun k hk => ?_, fun j hj => ?_, get?_zipIdx_none (by simp) 0, get?_zipIdx_none (by simp) 0⟩
  · have := get?_zipIdx_eq hnd (j := k) (by simp; omega) 0
    rw [List.getElem_append_left (by simpa using hk)] at this
    simpa using this
  · have := get?_zipIdx_eq hnd (j := code.stabs.length + j) (by simp; omega) 0
    rw [List.getElem_append_right (by simp)] at this
    simpa using this

/-- C83.  The virtual nodes of the matching graph get the label of their boundary point. -/
theorem C83_virtual {code : Code} (h : IsCode code) (bk : Backend) (lib : PathLib) (sp : SetPop) {w : V → ℚ}
    (hw : ∀ x ∈ code.syndrome, 0 ≤ w x) (bits : V → Bool) {G : MatchGraph} (hG : matchGraph bk lib (stabGraph bk sp code) w bits = some G) :
    ∃ ls, virtualLabels (stabGraph bk sp code) (matchNodes G (oddStabs (stabGraph bk sp code) bits)) = some ls ∧
      ∀ p i n, (MNode.virt p i, n) ∈ ls → ∃ j, ∃ hj : j < code.boundPoints.length, p = .pt code.boundPoints[j] ∧ n = code.stabs.length + j := by
  obtain ⟨ls, hls⟩ := Option.isSome_iff_exists.1 (labels_ok h bk lib sp hw bits hG (Or.inl rfl))
  refine ⟨ls, hls, fun p i n hn => ?_⟩
  unfold virtualLabels at hls
  have hmem : ∀ (f : MNode → Option (MNode × ℕ)) (l : List MNode) (ls : List (MNode × ℕ)), l.mapM f = some ls → ∀ x ∈ ls, ∃ a ∈ l, f a = some x := by
    intro f l
    induction l with
    | nil =>
      intro ls h x hx
      simp only [List.mapM_nil, pure, Option.some.injEq] at h
      rw [← h] at hx
      cases hx
    | cons a l ih =>
      intro ls h x hx
      rw [List.mapM_cons] at h
      obtain ⟨b, hb, h⟩ := Option.bind_eq_some_iff.1 h
      obtain ⟨bs, hbs, h⟩ := Option.bind_eq_some_iff.1 h
      simp only [pure, Option.some.injEq] at h
      rw [← h] at hx
      rcases List.mem_cons.1 hx with rfl | hx
      · exact ⟨a, by simp, hb⟩
      · obtain ⟨a', ha', h'⟩ := ih bs hbs x hx
        exact ⟨a', by simp [ha'], h'⟩
  obtain ⟨m, hm, he⟩ := hmem _ _ _ hls _ hn
  cases m with
  | stab k => cases he
  | virt p' i' =>
    simp only [Option.map_eq_some_iff] at he
    obtain ⟨j, hj, e⟩ := he
    obtain ⟨e1, rfl⟩ := Prod.mk.inj e
    cases e1
    have hm := (List.mem_filter.1 (List.mem_filter.1 hm).1).1
    rw [h.matchGraph bk lib sp hw] at hG
    obtain rfl := Option.some.inj hG
    rcases List.mem_append.1 hm with hm | hm
    · obtain ⟨k', -, e⟩ := List.mem_map.1 hm
      cases e
    · unfold virtuals at hm
      split_ifs at hm with ho
      · rw [decide_eq_true_eq] at ho
        obtain ⟨⟨k, j'⟩, he, e⟩ := List.mem_map.1 hm
        unfold virtNode at e
        obtain ⟨q, hq, hb⟩ := boundPoint_mem h bk lib sp hw ho ((mem_oddStabs bk sp h).1 (List.fst_mem_of_mem_zipIdx he)).1
        rw [hb] at e
        cases e
        obtain ⟨t, ht, rfl⟩ := List.getElem_of_mem hq
        refine ⟨t, ht, rfl, ?_⟩
        rw [(C83_labels h bk sp).2.1 t ht] at hj
        exact (Option.some.inj hj).symm
      · cases hm

/-- C83, the refutation.  After a drawing with the networkx backend the first two stabilizers have no label any more, and all other labels are
too small by two. -/
theorem C83_second {code : Code} (h : IsCode code) (sp : SetPop) :
    let L := stabLabels (afterDraw .networkx (stabGraph .networkx sp code))
    PyDict.get? L (.stab 0) = none ∧ PyDict.get? L (.stab 1) = none ∧
    (∀ k, k + 2 < code.stabs.length → PyDict.get? L (.stab (k + 2)) = some k) ∧
    ∀ j (hj : j < code.boundPoints.length), 2 ≤ code.stabs.length →
      PyDict.get? L (.pt code.boundPoints[j]) = some (code.stabs.length + j - 2) := by
  intro L
  have hdrop : (afterDraw .networkx (stabGraph .networkx sp code)).nodes =
      (List.range code.stabs.length).map SNode.stab ++ code.boundPoints.map SNode.pt := by
    show List.filter _ _ = _
    have e1 : ((List.range code.stabs.length).map SNode.stab).filter (fun n => !isConnector n) = (List.range code.stabs.length).map SNode.stab :=
      List.filter_eq_self.2 fun a ha => by obtain ⟨p, -, rfl⟩ := List.mem_map.1 ha; rfl
    have e2 : (code.boundPoints.map SNode.pt).filter (fun n => !isConnector n) = code.boundPoints.map SNode.pt :=
      List.filter_eq_self.2 fun a ha => by obtain ⟨p, -, rfl⟩ := List.mem_map.1 ha; rfl
    rw [nodes_eq h, List.filter_append, List.filter_append, e1, e2]
    rfl
  have hnd : ((List.range code.stabs.length).map SNode.stab ++ code.boundPoints.map SNode.pt).Nodup := by
    have := code_nodes_nodup h .networkx sp
    rw [nodes_eq h, List.append_assoc] at this
    exact (List.nodup_append.1 this).2.1
  have hL : L = (((List.range code.stabs.length).map SNode.stab ++ code.boundPoints.map SNode.pt).drop 2).zipIdx := by
    show List.zipIdx _ = _
    rw [hdrop]
  set l := (List.range code.stabs.length).map SNode.stab ++ code.boundPoints.map SNode.pt with hl
  have hget : ∀ i (hi : i + 2 < l.length), PyDict.get? L l[i + 2] = some i := by
    intro i hi
    have := get?_zipIdx_eq (hnd.sublist (List.drop_sublist 2 l)) (j := i) (by rw [List.length_drop]; omega) 0
    rw [List.getElem_drop, Nat.zero_add] at this
    rw [hL]
    have e : l[2 + i]'(by omega) = l[i + 2] := by congr 1; omega
    rw [← e]
    exact this
  have hnone : ∀ i < 2, ∀ k, k = i → PyDict.get? L (.stab k) = none := by
    rintro i hi k rfl
    rw [hL]
    refine get?_zipIdx_none (fun hm => ?_) 0
    obtain ⟨t, ht, e⟩ := List.getElem_of_mem hm
    rw [List.getElem_drop] at e
    rw [List.length_drop] at ht
    have hk : k < code.stabs.length := by
      have : SNode.stab k ∈ l := by rw [← e]; exact List.getElem_mem _
      simpa [hl] using this
    have hk' : k < l.length := by rw [hl]; simp; omega
    have e2 : l[k] = SNode.stab k := by
      simp only [hl]
      rw [List.getElem_append_left (by simpa using hk)]
      simp
    have := (List.Nodup.getElem_inj_iff hnd (hi := by omega) (hj := hk')).1 (e.trans e2.symm)
    omega
  have hst : ∀ k (hk : k < code.stabs.length) (hk' : k < l.length), l[k] = SNode.stab k := by
    intro k hk hk'
    simp only [hl]
    rw [List.getElem_append_left (by simpa using hk)]
    simp
  have hpt : ∀ j (hj : j < code.boundPoints.length) (i : ℕ) (hi : i < l.length), i = code.stabs.length + j → l[i] = SNode.pt code.boundPoints[j] := by
    rintro j hj i hi rfl
    simp only [hl]
    rw [List.getElem_append_right (by simp)]
    simp
  have hlen : l.length = code.stabs.length + code.boundPoints.length := by rw [hl]; simp
  clear_value l L
  refine ⟨hnone 0 (by norm_num) 0 rfl, hnone 1 (by norm_num) 1 rfl, fun k hk => ?_, fun j hj h2 => ?_⟩
  · have := hget k (by omega)
    rwa [hst (k + 2) hk] at this
  · have := hget (code.stabs.length + j - 2) (by omega)
    rwa [hpt j hj _ _ (by omega)] at this

-- the drawing of the planar code of distance two has nodes and edges
example (bk : Backend) (sp : SetPop) : ∃ code : Code, IsCode code ∧ 2 < code.stabs.length ∧ (drawnNx (stabGraph .networkx sp code) fun _ => 1).1 ≠ [] ∧
    PyDict.get? (stabLabels (stabGraph bk sp code)) (.stab 2) = some 2 := by
  obtain ⟨code, h, -, -, hb⟩ := C54_constructor_total idOrder .primal .open (dims := fun _ => 2) (by simp) none
  have hlen : ((surfaceCode idOrder .primal .open (fun _ => 2) none).map fun code => decide (2 < code.stabs.length)) = some true := by
    decide +kernel
  rw [h, Option.map_some, Option.some.injEq, decide_eq_true_eq] at hlen
  have hc : IsCode code := ⟨_, _, _, _, _, by simp, h⟩
  refine ⟨code, hc, hlen, fun e => ?_, (C83_labels hc bk _).1 2 hlen⟩
  have := ((C83_networkx hc sp (fun _ => 1) (Or.inl rfl)).nodes (.stab 2)).2 (Or.inl ⟨2, hlen, rfl⟩)
  rw [e] at this
  cases this

end Flamingpy.Viz
