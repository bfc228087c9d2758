import Verif.Proofs.RxPaths

/-!
# The rustworkx matching graph and the decoder: what is behind the indices
-/

namespace Flamingpy.SurfaceCode

open Flamingpy

/-! ### Computations that fail together -/

/-- Both fail, or both succeed with related results. -/
def ORel {σ τ : Type} (R : σ → τ → Prop) : Option σ → Option τ → Prop
  | some s, some t => R s t
  | none, none => True
  | _, _ => False

theorem ORel.bind {σ τ σ' τ' : Type} {R : σ → τ → Prop} {R' : σ' → τ' → Prop} {x : Option σ} {y : Option τ} (h : ORel R x y)
    {f : σ → Option σ'} {g : τ → Option τ'} (hf : ∀ s t, R s t → ORel R' (f s) (g t)) : ORel R' (x.bind f) (y.bind g) := by
  cases x <;> cases y
  · trivial
  · exact h.elim
  · exact h.elim
  · exact hf _ _ h

theorem ORel.foldlM {σ τ δ : Type} {R : σ → τ → Prop} {f : σ → δ → Option σ} {g : τ → δ → Option τ} (l : List δ)
    (h : ∀ s t, ∀ a ∈ l, R s t → ORel R (f s a) (g t a)) {s : σ} {t : τ} (hst : R s t) : ORel R (l.foldlM f s) (l.foldlM g t) := by
  induction l generalizing s t with
  | nil => exact hst
  | cons a l ih =>
    rw [List.foldlM_cons, List.foldlM_cons]
    exact (h s t a (by simp) hst).bind fun s' t' h' => ih (fun s t b hb => h s t b (by simp [hb])) h'

theorem ORel.mono {σ τ : Type} {R R' : σ → τ → Prop} (h : ∀ s t, R s t → R' s t) {x : Option σ} {y : Option τ} (hx : ORel R x y) :
    ORel R' x y := by
  cases x <;> cases y
  · trivial
  · exact hx.elim
  · exact hx.elim
  · exact h _ _ hx

theorem ORel.eq {σ : Type} {x y : Option σ} (hx : ORel (· = ·) x y) : x = y := by
  cases x <;> cases y
  · rfl
  · exact hx.elim
  · exact hx.elim
  · exact congrArg some hx

/-! ### The matching graph -/

/-- `M` stores the edges `D` between the nodes `L`. -/
structure RepM (M : RxMatch) (B : MatchGraph) (L : List MNode) (D : List ((MNode × MNode) × (ℚ × List SNode))) : Prop where
  base : M.base = rxOf false L D
  nodup : L.Nodup
  over : ∀ e ∈ D, e.1.1 ∈ L ∧ e.1.2 ∈ L
  edges : B.edges = symOf D
  keys : (PyDict.keys B.edges).Nodup
  virtuals : M.virtuals = B.virtuals

variable {M : RxMatch} {B : MatchGraph} {L : List MNode} {D : List ((MNode × MNode) × (ℚ × List SNode))}

/-- A graph is stored. -/
def Stored (M : RxMatch) (B : MatchGraph) : Prop := ∃ L D, RepM M B L D

theorem repM_empty : RepM ⟨.empty false, []⟩ ⟨[], []⟩ [] [] where
  base := rfl
  nodup := List.nodup_nil
  over := by simp
  edges := rfl
  keys := List.nodup_nil
  virtuals := rfl

theorem RepM.index (h : RepM M B L D) (n : MNode) : ∃ L', RepM (rxmIndex M n).1 B L' D ∧ (rxmIndex M n).2 = L'.idxOf n ∧ n ∈ L' ∧
    (∀ a ∈ L, a ∈ L' ∧ L'.idxOf a = L.idxOf a) ∧ (n ∈ L → rxmIndex M n = (M, L.idxOf n)) := by
  unfold rxmIndex
  by_cases hn : n ∈ L
  · have : PyDict.get? M.base.nodeToIndex n = some (L.idxOf n) := by rw [h.base]; exact rxOf_index hn
    rw [this]
    exact ⟨L, h, rfl, hn, fun a ha => ⟨ha, rfl⟩, fun _ => rfl⟩
  · have : PyDict.get? M.base.nodeToIndex n = none := by rw [h.base]; exact rxOf_index_none hn
    rw [this]
    have hnd : (L ++ [n]).Nodup := by
      rw [List.nodup_append]
      refine ⟨h.nodup, List.nodup_singleton n, ?_⟩
      intro a ha b hb hab
      rw [List.mem_singleton] at hb
      exact hn (hb ▸ hab ▸ ha)
    refine ⟨L ++ [n], ⟨?_, hnd, fun e he => ?_, h.edges, h.keys, h.virtuals⟩, ?_, by simp, fun a ha => ⟨by simp [ha], List.idxOf_append_of_mem ha⟩,
      fun hc => absurd hc hn⟩
    · change M.base.addNode n = _
      rw [h.base]
      exact rxOf_addNode hn h.over
    · exact ⟨List.mem_append_left _ (h.over e he).1, List.mem_append_left _ (h.over e he).2⟩
    · change M.base.graph.nodes.length = _
      rw [h.base, List.idxOf_append_of_notMem hn]
      simp [rxOf]

theorem RepM.addEdge (h : RepM M B L D) (u v : MNode) (wt : ℚ) (path : List SNode) :
    ∃ M', rxmAddEdge M u v wt path = some M' ∧ Stored M' (mgAddEdge B u v wt path) := by
  obtain ⟨L1, h1, i1, m1, -⟩ := h.index u
  obtain ⟨L2, h2, i2, m2, o2, -⟩ := h1.index v
  obtain ⟨m1', o1⟩ := o2 u m1
  have hadd := rxOf_addEdge (multi := false) h2.over m1' m2 ((wt, path) : ℚ × List SNode)
  rw [← h2.base, Option.map_eq_some_iff] at hadd
  obtain ⟨g, hg, hg'⟩ := hadd
  refine ⟨{ (rxmIndex (rxmIndex M u).1 v).1 with base := { (rxmIndex (rxmIndex M u).1 v).1.base with graph := g } }, ?_, L2, _, ⟨hg', h2.nodup, ?_, ?_, ?_, h2.virtuals⟩⟩
  · unfold rxmAddEdge
    simp only [i1, i2, ← o1]
    rw [hg]
    rfl
  · intro e he
    split_ifs at he
    · obtain ⟨e', he', rfl⟩ := List.mem_map.1 he
      have := h2.over e' he'
      split_ifs <;> exact this
    · rcases List.mem_append.1 he with he | he
      · exact h2.over e he
      · rw [List.mem_singleton] at he
        subst he
        exact ⟨m1', m2⟩
  · change PyDict.set B.edges s(u, v) (wt, path) = _
    rw [h2.edges]
    by_cases hk : s(u, v) ∈ PyDict.keys (symOf D)
    · rw [PyDict.set_of_mem _ hk]
      have : (PyDict.get? (symOf D) s(u, v)).isSome = true := (PyDict.get?_isSome_iff _ _).2 hk
      rw [this]
      simp only [Bool.not_false, Bool.and_self, if_true]
      unfold symOf
      rw [List.map_map, List.map_map]
      refine List.map_congr_left fun e _ => ?_
      simp only [Function.comp]
      split_ifs with hc
      · rw [hc]
      · rfl
    · rw [PyDict.set_of_not_mem _ hk]
      have : (PyDict.get? (symOf D) s(u, v)).isSome = false := by
        rw [(PyDict.get?_eq_none _ _).2 hk]; rfl
      rw [this]
      simp [symOf]
  · exact PyDict.keys_set_nodup _ _ h.keys

theorem Stored.addEdge (h : Stored M B) (u v : MNode) (wt : ℚ) (path : List SNode) :
    ORel Stored (rxmAddEdge M u v wt path) (some (mgAddEdge B u v wt path)) := by
  obtain ⟨L, D, h⟩ := h
  obtain ⟨M', e, h'⟩ := h.addEdge u v wt path
  rw [e]
  exact h'

theorem Stored.edgeData (h : Stored M B) {u v : MNode} (he : s(u, v) ∈ PyDict.keys B.edges) :
    rxmEdgeData M u v = (M, PyDict.get? B.edges s(u, v)) := by
  obtain ⟨L, D, h⟩ := h
  have hm : u ∈ L ∧ v ∈ L := by
    rw [h.edges] at he
    obtain ⟨e, he', hk⟩ := List.mem_map.1 he
    have := symOf_over h.over e he'
    rw [hk] at this
    exact over_mk.1 this
  obtain ⟨-, -, -, -, -, hu⟩ := h.index u
  obtain ⟨-, -, -, -, -, hv⟩ := h.index v
  unfold rxmEdgeData
  simp only [hu hm.1, hv hm.2, h.edges]
  rw [h.base, rxOf_edgeData h.over hm.1 hm.2]

theorem Stored.virtuals (h : Stored M B) : M.virtuals = B.virtuals := by
  obtain ⟨L, D, h⟩ := h
  exact h.virtuals

theorem Stored.pushVirtual (h : Stored M B) (n : MNode) :
    Stored { M with virtuals := M.virtuals ++ [n] } { B with virtuals := B.virtuals ++ [n] } := by
  obtain ⟨L, D, h⟩ := h
  exact ⟨L, D, h.base, h.nodup, h.over, h.edges, h.keys, by rw [h.virtuals]⟩

/-! ### Its construction -/

section
variable {G : RxStab} {A : StabGraph} {E : List (Sym2 SNode × ℚ)} {rl : RxPathLib} {lib : PathLib}

/-- The paths found by way of indices are those of `lib`. -/
def Paths (rl : RxPathLib) (lib : PathLib) (G : RxStab) (A : StabGraph) (E : List (Sym2 SNode × ℚ)) : Prop :=
  ∀ s ∈ A.nodes,
    (∃ r, rxsWithout rl G s = some r ∧ ∀ t ∈ A.nodes, PyDict.get? r.2 t = lib.find (withoutConnectors E) s t ∧
      PyDict.get? r.1 t = (lib.find (withoutConnectors E) s t).map (pathLength .rustworkx E)) ∧
    (∃ r, rxsFrom rl G s = some r ∧ ∀ t ∈ A.nodes, PyDict.get? r.2 t = lib.find E s t ∧
      PyDict.get? r.1 t = (lib.find E s t).map (pathLength .rustworkx E))

theorem real_sim (hP : Paths rl lib G A E) (odd : List ℕ) (ho : ∀ k ∈ odd, SNode.stab k ∈ A.nodes) (h : Stored M B) :
    ORel Stored (rxmReal rl G odd M) (realEdges .rustworkx lib E odd B) := by
  induction odd generalizing M B with
  | nil => exact h
  | cons a odd ih =>
    cases odd with
    | nil => exact h
    | cons b l =>
      obtain ⟨⟨r, e, hr⟩, -⟩ := hP (.stab a) (ho a (by simp))
      unfold rxmReal realEdges
      rw [combinations2, List.foldlM_append, e, List.foldlM_map]
      simp only [Option.bind_eq_bind, Option.bind_some]
      refine (ORel.foldlM (R := Stored) (b :: l) (fun M B c hc h => ?_) h).bind fun M' B' h' => ?_
      · obtain ⟨h2, h1⟩ := hr (.stab c) (ho c (List.mem_cons_of_mem a hc))
        rw [h1, h2]
        cases lib.find (withoutConnectors E) (.stab a) (.stab c) with
        | none => trivial
        | some p => exact h.addEdge _ _ _ _
      · exact ih (fun k hk => ho k (List.mem_cons_of_mem a hk)) h'

theorem virtual_sim (hP : Paths rl lib G A E) (hlow : SNode.low ∈ A.nodes) (hhigh : SNode.high ∈ A.nodes) (odd : List ℕ)
    (ho : ∀ k ∈ odd, SNode.stab k ∈ A.nodes) (h : Stored M B) :
    ORel Stored (rxmVirtual rl G odd M) (virtualEdges .rustworkx lib E odd B) := by
  obtain ⟨-, rl', el, hl⟩ := hP .low hlow
  obtain ⟨-, rh', eh, hh⟩ := hP .high hhigh
  unfold rxmVirtual virtualEdges
  simp only [el, eh, Option.bind_eq_bind, Option.bind_some]
  refine (ORel.foldlM (R := Stored) odd.zipIdx (fun M B e he h => ?_) h).bind fun M' B' h' => ?_
  · have hk : SNode.stab e.1 ∈ A.nodes := ho _ (by
      have := List.mem_zipIdx' (x := e.1) (i := e.2) he
      rw [this.2]
      exact List.getElem_mem _)
    obtain ⟨l2, l1⟩ := hl _ hk
    obtain ⟨h2, h1⟩ := hh _ hk
    unfold virtualStep
    rw [l1, l2, h1, h2]
    cases lib.find E .low (.stab e.1) with
    | none => trivial
    | some p =>
      cases lib.find E .high (.stab e.1) with
      | none => trivial
      | some q =>
        simp only [Option.map_some, Option.bind_eq_bind, Option.bind_some]
        generalize (if pathLength .rustworkx E p ≤ pathLength .rustworkx E q then p else q) = fp
        cases fp[1]? with
        | none => trivial
        | some x =>
          simp only [Option.bind_some]
          obtain ⟨L, D, h⟩ := h
          obtain ⟨M', e1, h'⟩ := h.addEdge (.stab e.1) (.virt x e.2)
            (if pathLength .rustworkx E p ≤ pathLength .rustworkx E q then pathLength .rustworkx E p else pathLength .rustworkx E q) fp.tail
          rw [e1]
          exact h'.pushVirtual _
  · rw [h'.virtuals]
    have key : ∀ (l : List (MNode × MNode)) (M : RxMatch) (B : MatchGraph), Stored M B →
        ORel Stored (l.foldlM (fun M e => rxmAddEdge M e.1 e.2 0 []) M) (some (l.foldl (fun G e => mgAddEdge G e.1 e.2 0 []) B)) := by
      intro l
      induction l with
      | nil => exact fun M B h => h
      | cons e l ih =>
        intro M B h
        obtain ⟨L, D, h⟩ := h
        obtain ⟨M', e1, h'⟩ := h.addEdge e.1 e.2 0 []
        rw [List.foldlM_cons, e1]
        exact ih M' _ h'
    exact key _ _ _ h'

theorem matchGraph_sim {D : List ((SNode × SNode) × EdgeDict)} (hG : Rep G A D) {w : V → ℚ} (hP : Paths rl lib G A (weightedEdges A w))
    (hlow : SNode.low ∈ A.nodes)
    (hhigh : SNode.high ∈ A.nodes) (hst : ∀ k < A.stabs.length, SNode.stab k ∈ A.nodes) (bits : V → Bool) :
    ORel Stored (rxMatchGraph rl G bits) (matchGraph .rustworkx lib A w bits) := by
  have hodd : rxsOdd G bits = oddStabs A bits := by
    unfold rxsOdd oddStabs
    rw [hG.stabs]
    rfl
  unfold rxMatchGraph matchGraph
  simp only [hodd, hG.low, hG.high]
  have ho : ∀ k ∈ oddStabs A bits, SNode.stab k ∈ A.nodes := fun k hk => hst k (List.mem_range.1 (List.mem_filter.1 hk).1)
  split_ifs with hc hv
  · exact ⟨[], [], repM_empty⟩
  · exact (real_sim hP _ ho ⟨[], [], repM_empty⟩).bind fun M' B' h' => virtual_sim hP hlow hhigh _ ho h'
  · exact (real_sim hP _ ho ⟨[], [], repM_empty⟩).bind fun M' B' h' => h'

end

/-! ### The decoder -/

theorem Stored.matching (h : Stored M B) (rm : RxMatchLib) : ∃ ml : MatchLib, rxmMatching rm M = some (perfectMatching ml B) := by
  obtain ⟨L, D, h⟩ := h
  obtain ⟨ml₀⟩ := matchLib_exists
  obtain ⟨ml, hml⟩ := matchLib_of rm ml₀ L
  refine ⟨ml, ?_⟩
  have hk : PyDict.keys (B.edges.map fun e => (e.1, e.2.1)) = PyDict.keys B.edges := by
    simp [PyDict.keys, Function.comp_def]
  have := hml (B.edges.map fun e => (e.1, e.2.1)) (by
    intro e he
    obtain ⟨e', he', rfl⟩ := List.mem_map.1 he
    rw [h.edges] at he'
    exact symOf_over h.over e' he') (by rw [hk]; exact h.keys)
  unfold perfectMatching
  rw [← this]
  unfold rxmMatching
  have hE : (M.base.graph.edges.map fun e => (s(e.1.1, e.1.2), -e.2.1)) = ixE L (negE (B.edges.map fun e => (e.1, e.2.1))) := by
    rw [h.base, h.edges]
    unfold ixE negE symOf rxOf
    simp only [List.map_map]
    rfl
  have hix : ∀ i, PyDict.get? M.base.indexToNode i = L[i]? := by intro i; rw [h.base]; exact rxOf_node i
  rw [hE]
  simp only [hix]

theorem toggle_sim {G : RxStab} {A : StabGraph} {D : List ((SNode × SNode) × EdgeDict)} (hG : Rep G A D) (p : List SNode) (s : List (Option V)) :
    rxTogglePath G p s = togglePath A p s := by
  induction p generalizing s with
  | nil => rfl
  | cons a p ih =>
    cases p with
    | nil => rfl
    | cons b p =>
      rw [rxTogglePath, togglePath, ← hG.edgeData_cv a b]
      cases rxsEdgeData G a b with
      | none => rfl
      | some d => exact ih _

/-- The decoder by way of indices is the decoder for some routines. -/
theorem decoder_sim {G : RxStab} {A : StabGraph} {D : List ((SNode × SNode) × EdgeDict)} (hG : Rep G A D) {rl : RxPathLib} {lib : PathLib}
    {w : V → ℚ} (hP : Paths rl lib G A (weightedEdges A w)) (hlow : SNode.low ∈ A.nodes) (hhigh : SNode.high ∈ A.nodes)
    (hst : ∀ k < A.stabs.length, SNode.stab k ∈ A.nodes) (bits : V → Bool) (rm : RxMatchLib) :
    ∃ ml : MatchLib, rxMwpm rl rm G bits = mwpmDecoder .rustworkx lib ml A w bits := by
  have hm := matchGraph_sim hG hP hlow hhigh hst bits
  unfold rxMwpm mwpmDecoder
  cases h1 : rxMatchGraph rl G bits with
  | none =>
    rw [h1] at hm
    cases h2 : matchGraph .rustworkx lib A w bits with
    | none =>
      obtain ⟨ml₀⟩ := matchLib_exists
      exact ⟨ml₀, rfl⟩
    | some B =>
      rw [h2] at hm
      exact hm.elim
  | some M =>
    rw [h1] at hm
    cases h2 : matchGraph .rustworkx lib A w bits with
    | none =>
      rw [h2] at hm
      exact hm.elim
    | some B =>
      rw [h2] at hm
      obtain ⟨ml, hml⟩ := hm.matching rm
      refine ⟨ml, ?_⟩
      simp only [Option.bind_eq_bind, Option.bind_some, hml]
      have hedge : ∀ m ∈ perfectMatching ml B, s(m.1, m.2) ∈ PyDict.keys B.edges := by
        intro m hm
        unfold perfectMatching at hm
        have := (ml.isMatching _).1 m hm
        have hk : PyDict.keys (B.edges.map fun e => (e.1, e.2.1)) = PyDict.keys B.edges := by
          simp [PyDict.keys, Function.comp_def]
        rwa [hk] at this
      unfold matchingRecovery
      have hloop := ORel.foldlM (R := fun (st : RxMatch × List (Option V)) s => st = (M, s)) (perfectMatching ml B)
        (f := fun (st : RxMatch × List (Option V)) m =>
          if m.1 ∈ st.1.virtuals ∧ m.2 ∈ st.1.virtuals then some st
          else do
            let q := rxmEdgeData st.1 m.1 m.2
            let d ← q.2
            let s ← rxTogglePath G d.2 st.2
            pure (q.1, s))
        (g := fun s m =>
          if m.1 ∈ B.virtuals ∧ m.2 ∈ B.virtuals then some s
          else do
            let e ← PyDict.get? B.edges s(m.1, m.2)
            togglePath A e.2 s) (by
          rintro st s m hmem rfl
          rw [hm.virtuals]
          split_ifs with hv
          · rfl
          · rw [hm.edgeData (hedge m hmem)]
            simp only [Option.bind_eq_bind, toggle_sim hG]
            cases PyDict.get? B.edges s(m.1, m.2) with
            | none => trivial
            | some d =>
              simp only [Option.bind_some]
              cases togglePath A d.2 s with
              | none => trivial
              | some s' => rfl) (s := (M, [])) (t := []) rfl
      have := (hloop.bind (R' := (· = ·)) (f := fun r => pure r.2) (g := some) (by rintro _ s rfl; rfl)).eq
      rw [Option.bind_fun_some] at this
      exact this

end Flamingpy.SurfaceCode
