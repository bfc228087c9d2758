import Verif.Proofs.UfTree
import Verif.Proofs.UfLibs
import Verif.Proofs.UfCode

/-!
# C38 - C41: the Union-Find decoder

`Conn pairs u v`: `u` and `v` are joined by a sequence of pairs.  `joins ops`: the pairs of nodes joined by a history.
-/

namespace Flamingpy.UnionFind

open Flamingpy

variable {N Q : Type} [DecidableEq N] [DecidableEq Q]

/-! ### C40 -/

/-- After any history of `union` and `find_root` no operation has failed, and for every node `u`, `find_root` returns a
root that is the same for `v` exactly if the history has joined `u` and `v`; its size is the number of nodes joined
to `u`, its parity that of the odd ones among them, and it has a boundary node exactly if one of them was
made as boundary node (and then it is such a node). -/
theorem C40_partition (ns : List N) (hn : ns.Nodup) (p : N → Option Bool) (ops : List (Op N))
    (hops : ∀ o ∈ ops, ∀ v ∈ o.nodes, v ∈ ns) :
    ∃ h, ops.foldlM Op.run (startHeap ns p) = some h ∧ ∀ u ∈ ns, ∃ h' r, findRoot h u = some (h', some r) ∧
      r ∈ ns ∧ Conn (joins ops) u r ∧
      (∀ v ∈ ns, ∃ h'' s, findRoot h v = some (h'', some s) ∧ (s = r ↔ Conn (joins ops) u v)) ∧
      h'.size r = {v | v ∈ ns ∧ Conn (joins ops) u v}.ncard ∧
      (h'.parity r = true ↔ Odd {v | v ∈ ns ∧ Conn (joins ops) u v ∧ p v = some true}.ncard) ∧
      (h'.boundary r = none ↔ ∀ v ∈ ns, Conn (joins ops) u v → p v ≠ none) ∧
      (∀ b, h'.boundary r = some b → b ∈ ns ∧ Conn (joins ops) u b ∧ p b = none) := by
  obtain ⟨rep0, dep0, H0, hr0⟩ := start_inv ns p hn
  obtain ⟨h, rep, dep, e, H, hrep⟩ := hist_inv ns p ops hops _ rep0 dep0 H0 [] (fun u hu v hv => by
    rw [hr0 u hu, hr0 v hv]
    exact ⟨fun e => e ▸ Conn.refl _ _, Conn.nil⟩)
  rw [List.append_nil] at hrep
  have hsame : ∀ u ∈ ns, ∀ v ∈ ns, rep v = rep u ↔ Conn (joins ops) u v := fun u hu v hv => by
    rw [← hrep u hu v hv]; exact eq_comm
  refine ⟨h, e, fun u hu => ?_⟩
  obtain ⟨h', e', H', _, hs, hp, hb⟩ := H.findRoot hu
  refine ⟨h', rep u, e', H.rep_mem u hu, ?_, ?_, ?_, ?_, ?_, ?_⟩
  · exact (hsame u hu _ (H.rep_mem u hu)).1 (H.rep_rep u hu)
  · intro v hv
    obtain ⟨h'', e'', _⟩ := H.findRoot hv
    exact ⟨h'', rep v, e'', hsame u hu v hv⟩
  · rw [H'.size u hu, ← ncard_countP hn]
    congr 1
    ext v
    exact ⟨fun hv => ⟨hv.1, (hsame u hu v hv.1).1 hv.2⟩, fun hv => ⟨hv.1, (hsame u hu v hv.1).2 hv.2⟩⟩
  · rw [H'.parity u hu, ← ncard_countP hn, decide_eq_true_eq, ← Nat.odd_iff]
    have : {v | v ∈ ns ∧ rep v = rep u ∧ p v = some true} = {v | v ∈ ns ∧ Conn (joins ops) u v ∧ p v = some true} := by
      ext v
      exact ⟨fun hv => ⟨hv.1, (hsame u hu v hv.1).1 hv.2.1, hv.2.2⟩, fun hv => ⟨hv.1, (hsame u hu v hv.1).2 hv.2.1, hv.2.2⟩⟩
    rw [this]
  · constructor
    · intro hb' v hv hc
      exact H'.bnone u hu hb' v hv ((hsame u hu v hv).2 hc)
    · intro hall
      by_contra hc
      obtain ⟨b, hb'⟩ := Option.ne_none_iff_exists'.1 hc
      obtain ⟨h1, h2, h3⟩ := H'.bsome u hu b hb'
      exact hall b h1 ((hsame u hu b h1).1 h2) h3
  · intro b hb'
    obtain ⟨h1, h2, h3⟩ := H'.bsome u hu b hb'
    exact ⟨h1, (hsame u hu b h1).1 h2, h3⟩

/-- The same for every way to build clusters: nodes `ns` are made with `Node`, then any calls of `Root`, `add_child`,
`find_root`, `parity` and `union` follow, each of which puts a new node in a cluster or uses nodes that are in one.
`p` are the parities given to `Root` (0 for children).  No call fails; the nodes that were put in a cluster have roots that
are the same exactly if they were joined, with the size, parity and boundary of the cluster, and the parity is
what `parity` returns.  The other nodes have no root and no parity. -/
theorem C40_history (ns : List N) (p : N → Option Bool) (as : List (Act N)) (hleg : Legal ns [] as)
    (hroot : ∀ v q, Act.root v q ∈ as → p v = q) (hchild : ∀ u v, Act.child u v ∈ as → p v = some false) :
    ∃ h, as.foldlM Act.run (newNodes ns) = some h ∧
      (∀ u ∈ ns, u ∉ as.flatMap Act.adds → findRoot h u = some (h, none) ∧ nodeParity h u = some (h, none)) ∧
      ∀ u ∈ as.flatMap Act.adds, ∃ h' h'' r, findRoot h u = some (h', some r) ∧
        nodeParity h u = some (h'', some (h'.parity r)) ∧ r ∈ as.flatMap Act.adds ∧ Conn (actPairs as) u r ∧
        (∀ v ∈ as.flatMap Act.adds, ∃ h'' s, findRoot h v = some (h'', some s) ∧ (s = r ↔ Conn (actPairs as) u v)) ∧
        h'.size r = {v | v ∈ as.flatMap Act.adds ∧ Conn (actPairs as) u v}.ncard ∧
        (h'.parity r = true ↔ Odd {v | v ∈ as.flatMap Act.adds ∧ Conn (actPairs as) u v ∧ p v = some true}.ncard) ∧
        (h'.boundary r = none ↔ ∀ v ∈ as.flatMap Act.adds, Conn (actPairs as) u v → p v ≠ none) ∧
        (∀ b, h'.boundary r = some b → b ∈ as.flatMap Act.adds ∧ Conn (actPairs as) u b ∧ p b = none) := by
  obtain ⟨h, rep, dep, e, hnodes, hn, hf, H, hrep⟩ := act_inv ns p as hroot hchild [] (newNodes ns) id (fun _ => 0) [] hleg
    (by simp) (by simp) rfl (fun _ _ _ => rfl) (HInv.new ns p) (by simp) (by simp)
  rw [List.nil_append] at hn hf H hrep
  rw [List.append_nil] at hrep
  generalize as.flatMap Act.adds = live at *
  have hsame : ∀ u ∈ live, ∀ v ∈ live, rep v = rep u ↔ Conn (actPairs as) u v := fun u hu v hv => by
    rw [← hrep u hu v hv]; exact eq_comm
  refine ⟨h, e, fun u hu hul => findRoot_new (hnodes ▸ hu) (hf u hu hul), fun u hu => ?_⟩
  obtain ⟨h', e', H', _, hs, hp, hb⟩ := H.findRoot hu
  obtain ⟨h'', e'', _⟩ := H.nodeParity hu
  refine ⟨h', h'', rep u, e', by rw [hp]; exact e'', H.rep_mem u hu, ?_, ?_, ?_, ?_, ?_, ?_⟩
  · exact (hsame u hu _ (H.rep_mem u hu)).1 (H.rep_rep u hu)
  · intro v hv
    obtain ⟨h'', e'', _⟩ := H.findRoot hv
    exact ⟨h'', rep v, e'', hsame u hu v hv⟩
  · rw [H'.size u hu, ← ncard_countP hn]
    congr 1
    ext v
    exact ⟨fun hv => ⟨hv.1, (hsame u hu v hv.1).1 hv.2⟩, fun hv => ⟨hv.1, (hsame u hu v hv.1).2 hv.2⟩⟩
  · rw [H'.parity u hu, ← ncard_countP hn, decide_eq_true_eq, ← Nat.odd_iff]
    have : {v | v ∈ live ∧ rep v = rep u ∧ p v = some true} = {v | v ∈ live ∧ Conn (actPairs as) u v ∧ p v = some true} := by
      ext v
      exact ⟨fun hv => ⟨hv.1, (hsame u hu v hv.1).1 hv.2.1, hv.2.2⟩, fun hv => ⟨hv.1, (hsame u hu v hv.1).2 hv.2.1, hv.2.2⟩⟩
    rw [this]
  · constructor
    · intro hb' v hv hc
      exact H'.bnone u hu hb' v hv ((hsame u hu v hv).2 hc)
    · intro hall
      by_contra hc
      obtain ⟨b, hb'⟩ := Option.ne_none_iff_exists'.1 hc
      obtain ⟨h1, h2, h3⟩ := H'.bsome u hu b hb'
      exact hall b h1 ((hsame u hu b h1).1 h2) h3
  · intro b hb'
    obtain ⟨h1, h2, h3⟩ := H'.bsome u hu b hb'
    exact ⟨h1, (hsame u hu b h1).1 h2, h3⟩

-- the history of tests/decoders/test_uf_decoder.py:113-133
example : Legal [1, 2, 3, 4, 5, 6] [] ([.root 1 (some true), .root 2 none, .child 1 3, .child 3 4, .child 2 5, .par 4,
    .join 4 5, .find 4] : List (Act ℕ)) ∧
    ((([.root 1 (some true), .root 2 none, .child 1 3, .child 3 4, .child 2 5, .par 4, .join 4 5, .find 4] :
      List (Act ℕ)).foldlM Act.run (newNodes [1, 2, 3, 4, 5, 6])).bind fun h => (nodeParity h 5).map fun r =>
        (r.2, r.1.size 1, r.1.boundary 1)) = some (some true, 5, some 2) := by
  refine ⟨?_, by decide +kernel⟩
  simp [Legal, Act.adds, Act.needs]

/-! ### C41 -/

/-- Peeling a forest whose trees have an even number of odd nodes removes every edge, leaves no odd node, and returns
qubits of the forest such that every node has an odd number of edges with returned qubits exactly if it was
odd. -/
theorem C41_peeling (ns : List N) (es : List (N × N × Q)) (par : N → Bool) (hfor : IsForest es)
    (hq : (es.map fun e => e.2.2).Nodup) (hns : ∀ e ∈ es, e.1 ∈ ns ∧ e.2.1 ∈ ns)
    (heven : ∀ v ∈ ns, Even {u | u ∈ ns ∧ Conn (es.map fun e => s(e.1, e.2.1)) v u ∧ par u = true}.ncard) :
    (peeling ns es par).1 = [] ∧ (∀ v ∈ ns, (peeling ns es par).2.1 v = false) ∧
      (peeling ns es par).2.2.Nodup ∧ (∀ q ∈ (peeling ns es par).2.2, q ∈ es.map fun e => e.2.2) ∧
      ∀ v ∈ ns, (Odd (es.countP fun e => decide (e.2.2 ∈ (peeling ns es par).2.2 ∧ (e.1 = v ∨ e.2.1 = v))) ↔
        par v = true) :=
  peeling_count ns es par hfor hq hns heven

/-! ### C38 -/

open SurfaceCode

/-- If every odd stabilizer is joined to a boundary point or to an even number of odd stabilizers, then for every erasure
pattern, every order in which sets are iterated and every choice of components no operation fails, and the growth
stops after at most `2 * edges + 1` rounds, with the erased edges grown and every cluster even or touching a boundary
point. -/
theorem C38_terminates (cl : CompLib SNode) (io : IterOrder SNode) {I : Input} (hI : Wf I) (hok : CompOk I) (fuel : ℕ)
    (hf : 2 * (realE I.E).length + 1 ≤ fuel) :
    ∃ s odd s', initState cl io I = some (s, odd) ∧ unionFind io I fuel 0 s odd = some s' ∧
      (∀ e ∈ realE I.E, erased I.E e = true → e ∈ grownL s'.status) ∧ (∀ e ∈ grownL s'.status, e ∈ realE I.E) ∧
      ∀ k, SNode.stab k ∈ I.nodes → (∃ e ∈ realE I.E, SNode.stab k ∈ e) →
        (∃ p, Conn (grownL s'.status) (.stab k) (.pt p)) ∨ Even (oddComp I (grownL s'.status) (.stab k)).ncard := by
  obtain ⟨s, odd, s', rep, dep, e1, e2, H, her⟩ := unionFind_spec cl io hI hok fuel hf
  refine ⟨s, odd, s', e1, e2, fun e he h => her e (List.mem_filter.2 ⟨he, h⟩), fun e he => grownL_sub H.status he,
    fun k _ hk => H.final hI ((mem_erasureNodes hI).2 hk)⟩

/-- Otherwise the growth loop runs forever: no round fails and there is always an odd cluster left. -/
theorem C38_hangs (cl : CompLib SNode) (io : IterOrder SNode) {I : Input} (hI : Wf I) {k : ℕ}
    (hk : ∃ e ∈ realE I.E, SNode.stab k ∈ e) (h1 : ∀ p, ¬ Conn (realE I.E) (.stab k) (.pt p))
    (h2 : ¬ Even (oddComp I (realE I.E) (.stab k)).ncard) :
    ∃ run : ℕ → St × List SNode, initState cl io I = some (run 0) ∧
      ∀ n, (run n).2 ≠ [] ∧ round io n I (run n).1 (run n).2 = some (run (n + 1)) := by
  have hv := (mem_erasureNodes hI).2 hk
  obtain ⟨s, odd, rep, dep, e, _, H, ho⟩ := initState_spec cl io hI
  let T := {x : St × List SNode // ∃ rep dep, CInv I x.1 (grownL x.1.status) x.2 rep dep ∧ ∀ c ∈ x.2, rep c = c}
  have hstep : ∀ n (x : T), ∃ y : T, round io n I x.1.1 x.1.2 = some y.1 := by
    rintro n ⟨⟨s, odd⟩, rep, dep, H, ho⟩
    obtain ⟨s', odd', rep', dep', e, H', ho', _⟩ := round_spec hI io n H ho
    exact ⟨⟨(s', odd'), rep', dep', H', fun c hc => (ho' c hc).1⟩, e⟩
  choose next hnext using hstep
  let run : ℕ → T := fun n => Nat.rec ⟨(s, odd), rep, dep, H, ho⟩ (fun n x => next n x) n
  refine ⟨fun n => (run n).1, e, fun n => ⟨?_, hnext n (run n)⟩⟩
  obtain ⟨rep', dep', H', _⟩ := (run n).2
  exact H'.stuck hI hv h1 h2

/-- On the stabilizer graph of a code the condition always holds. -/
theorem C38_code {code : Code} (h : IsCode code) (bk : Backend) (sp : SetPop) (w : V → ℚ) (bits : V → Bool) :
    Wf (ufInput (stabGraph bk sp code) w bits) ∧ CompOk (ufInput (stabGraph bk sp code) w bits) :=
  ⟨wf_code h bk sp w bits, compOk_code h bk sp w bits⟩

/-! ### C39 -/

/-- For every assignment of bits and weights (erased qubits have weight -1), every order of iteration, every choice of
components and spanning forests: the decoder returns a set of syndrome qubits, the recovery succeeds, and no
stabilizer is odd afterwards. -/
theorem C39_clears {code : Code} (h : IsCode code) (bk : Backend) (sp : SetPop) (cl : CompLib SNode)
    (sl : SpanLib SNode (Option V)) (io : IterOrder SNode) (w : V → ℚ) (bits : V → Bool) (fuel : ℕ)
    (hf : 2 * (stabGraph bk sp code).edges.length + 1 ≤ fuel) :
    ∃ R bits', ufDecoder cl sl io fuel (stabGraph bk sp code) w bits = some R ∧ R.Nodup ∧
      (∀ q ∈ R, ∃ x ∈ code.syndrome, q = some x) ∧
      recovery (PyDict.keys code.graph.nodes) R bits = some bits' ∧ trivialSyndrome code bits' := by
  have hle : (realE (ufInput (stabGraph bk sp code) w bits).E).length ≤ (stabGraph bk sp code).edges.length := by
    unfold realE ufInput
    refine (List.length_filter_le _ _).trans ?_
    simp only
    rw [keys_weightedEdges, PyDict.keys, List.length_map]
  obtain ⟨R, h1, h2, h3, h4⟩ := uf_spec h bk sp w bits cl sl io fuel (by omega)
  have hsyn : ∀ x ∈ R, x ∈ code.syndrome := fun x hx => by
    obtain ⟨e, he⟩ := h3 x hx
    exact (h.ok.1.edge_effect h.ok.2 sp he).1
  refine ⟨R.map some, _, h1, h2.map (Option.some_injective _), ?_,
    recovery_nodup _ R (fun q hq => h.syndrome_node (hsyn q hq)) h2 bits, ?_⟩
  · intro q hq
    obtain ⟨x, hx, rfl⟩ := List.mem_map.1 hq
    exact ⟨x, hsyn x hx, rfl⟩
  · intro s hs
    obtain ⟨k, hk, rfl⟩ := List.getElem_of_mem hs
    have := h4 k hk
    rw [List.getD_eq_getElem _ _ hk] at this
    rw [parity_xor, this, Bool.xor_self]

/-! ### Concrete cases -/

-- C38: two stabilizers joined by one edge, one of them odd and the other joined to a boundary point: decodable ...
example : ∃ I : Input, Wf I ∧ CompOk I ∧ I.odd 0 = true ∧ I.odd 1 = false ∧ SNode.stab 0 ∈ I.nodes ∧
    realE I.E = [s(.stab 0, .stab 1), s(.stab 1, .pt fun _ => 0)] := by
  refine ⟨⟨[.stab 0, .stab 1, .pt fun _ => 0], [(s(.stab 0, .stab 1), 2), (s(.stab 1, .pt fun _ => 0), -1)],
    fun k => k == 0⟩, ⟨by simp, ?_, ?_, ?_⟩, ?_, rfl, rfl, by simp, ?_⟩
  · intro e he v hv
    have he := List.mem_of_mem_filter he
    simp only [PyDict.keys, List.map_cons, List.map_nil, List.mem_cons, List.not_mem_nil, or_false] at he
    rcases he with rfl | rfl <;> rcases Sym2.mem_iff.1 hv with rfl | rfl <;> simp
  · intro e he
    have he := List.mem_of_mem_filter he
    simp only [PyDict.keys, List.map_cons, List.map_nil, List.mem_cons, List.not_mem_nil, or_false] at he
    rcases he with rfl | rfl <;> simp
  · simp [PyDict.keys]
  · intro k hk _
    left
    refine ⟨fun _ => 0, ?_⟩
    have e1 : Conn (realE [(s(.stab 0, .stab 1), (2 : ℚ)), (s(.stab 1, .pt fun _ => 0), -1)]) (.stab 0) (.stab 1) :=
      Conn.edge (by simp [realE, PyDict.keys])
    have e2 : Conn (realE [(s(.stab 0, .stab 1), (2 : ℚ)), (s(.stab 1, .pt fun _ => 0), -1)]) (.stab 1) (.pt fun _ => 0) :=
      Conn.edge (by simp [realE, PyDict.keys])
    simp at hk
    rcases hk with rfl | rfl
    · exact e1.trans e2
    · exact e2
  · simp [realE, PyDict.keys]

-- ... and without the boundary point the decoder hangs
example : ∃ I : Input, Wf I ∧ (∃ e ∈ realE I.E, SNode.stab 0 ∈ e) ∧ (∀ p, ¬ Conn (realE I.E) (.stab 0) (.pt p)) ∧
    ¬ Even (oddComp I (realE I.E) (.stab 0)).ncard := by
  let I : Input := ⟨[.stab 0, .stab 1], [(s(.stab 0, .stab 1), 2)], fun k => k == 0⟩
  have hE : realE I.E = [s(.stab 0, .stab 1)] := by simp [I, realE, PyDict.keys]
  refine ⟨I, ⟨by simp [I], ?_, ?_, ?_⟩, ?_, ?_, ?_⟩
  · rw [hE]; simp [I]
  · rw [hE]; simp
  · simp [I, PyDict.keys]
  · rw [hE]; exact ⟨_, List.mem_singleton.2 rfl, by simp⟩
  · intro p hp
    rw [hE] at hp
    rcases hp.cons with h | ⟨h, _⟩ | ⟨h, h'⟩
    · cases h.nil
    · cases h.nil
      rename_i h'
      cases h'.nil
    · cases h.nil
  · have : oddComp I (realE I.E) (.stab 0) = {SNode.stab 0} := by
      ext u
      constructor
      · rintro ⟨j, rfl, _, hj, _⟩
        have : j = 0 := by simpa [I] using hj
        rw [this]; rfl
      · rintro rfl
        exact ⟨0, rfl, by simp [I], rfl, Conn.refl _ _⟩
    rw [this, Set.ncard_singleton]
    decide

-- C39: codes exist (C23), as do the library routines and iteration orders
example : Nonempty (CompLib SNode) ∧ Nonempty (SpanLib SNode (Option V)) ∧ Nonempty (IterOrder SNode) :=
  ⟨compLib_exists, spanLib_exists, iterOrder_exists⟩


-- C40: three nodes, one of them a boundary node; the history compresses a path
example : ((([Op.join 1 2, .join 3 4, .join 2 4, .find 4] : List (Op ℕ)).foldlM Op.run
    (startHeap [1, 2, 3, 4, 5] fun v => if v = 3 then none else some (v % 2 == 0))).bind fun h => (findRoot h 4).map fun r =>
      (r.2, r.1.size 1, r.1.parity 1, r.1.boundary 1)) = some (some 1, 4, false, some 3) := by
  decide +kernel

-- C41: a path of three edges with odd ends
example : peeling [1, 2, 3, 4] [(1, 2, 'a'), (2, 3, 'b'), (4, 3, 'c')] (fun v => v == 1 || v == 3) =
    ([], fun _ => false, ['a', 'b']) := by
  refine Prod.ext rfl (Prod.ext ?_ (by decide +kernel))
  funext v
  by_cases h1 : v = 1
  · subst h1; decide +kernel
  · by_cases h2 : v = 2
    · subst h2; decide +kernel
    · by_cases h3 : v = 3
      · subst h3; decide +kernel
      · by_cases h4 : v = 4
        · subst h4; decide +kernel
        · simp [peeling, degree, trimForest, Function.update, h1, h2, h3, h4]

-- ... which meets the hypotheses
example : IsForest [(1, 2, 'a'), (2, 3, 'b'), (4, 3, 'c')] ∧
    (∀ v ∈ [1, 2, 3, 4], Even {u | u ∈ [1, 2, 3, 4] ∧ Conn [s(1, 2), s(2, 3), s(4, 3)] v u ∧ (u == 1 || u == 3) = true}.ncard) := by
  constructor
  · refine ((IsForest.nil.cons ?_).cons ?_).cons ?_
    · intro h; exact absurd h.nil (by decide)
    · intro h
      simp only [links, List.map_cons, List.map_nil] at h
      rcases h.cons with h | ⟨h, _⟩ | ⟨h, _⟩ <;> exact absurd h.nil (by decide)
    · intro h
      simp only [links, List.map_cons, List.map_nil] at h
      have h1 : ∀ x, Conn [s(4, 3)] 1 x → 1 = x := fun x h => by
        rcases h.cons with h | ⟨h, _⟩ | ⟨h, _⟩
        · exact h.nil
        · exact absurd h.nil (by decide)
        · exact absurd h.nil (by decide)
      rcases h.cons with h | ⟨h, _⟩ | ⟨h, _⟩ <;> exact absurd (h1 _ h) (by decide)
  · have c12 : Conn [s(1, 2), s(2, 3), s(4, 3)] 1 2 := Conn.edge (by simp)
    have c23 : Conn [s(1, 2), s(2, 3), s(4, 3)] 2 3 := Conn.edge (by simp)
    have c43 : Conn [s(1, 2), s(2, 3), s(4, 3)] 4 3 := Conn.edge (by simp)
    intro v hv
    have hall : Conn [s(1, 2), s(2, 3), s(4, 3)] v 1 := by
      simp only [List.mem_cons, List.not_mem_nil, or_false] at hv
      rcases hv with rfl | rfl | rfl | rfl
      · exact Conn.refl _ _
      · exact c12.symm
      · exact (c12.trans c23).symm
      · exact c43.trans (c12.trans c23).symm
    have : {u | u ∈ [1, 2, 3, 4] ∧ Conn [s(1, 2), s(2, 3), s(4, 3)] v u ∧ (u == 1 || u == 3) = true} = {1, 3} := by
      ext u
      constructor
      · rintro ⟨_, _, h⟩
        simpa using h
      · rintro (rfl | rfl)
        · exact ⟨by simp, hall, rfl⟩
        · exact ⟨by simp, hall.trans (c12.trans c23), rfl⟩
    rw [this, Set.ncard_pair (by decide)]
    exact even_two

end Flamingpy.UnionFind
