import Verif.Model.Viz
import Verif.Proofs.UfCode

/-!
# Union-Find does not use the connectors
-/

namespace Flamingpy.UnionFind

open Flamingpy SurfaceCode

/-- Two inputs that differ only in the connectors. -/
structure SameReal (io : IterOrder SNode) (I J : Input) : Prop where
  nodes : J.nodes = I.nodes.filter fun n => !isConn n
  real : realE J.E = realE I.E
  er : ∀ e ∈ realE I.E, erased J.E e = erased I.E e
  odd : J.odd = I.odd
  out : ∀ t n, outEdges io t J n = outEdges io t I n

theorem real_not_conn {E : List (Sym2 SNode × ℚ)} {e : Sym2 SNode} (he : e ∈ realE E) {n : SNode} (hn : n ∈ e) : isConn n = false := by
  unfold realE at he
  rw [List.mem_filter, decide_eq_true_eq] at he
  cases n with
  | low => exact absurd hn he.2.1
  | high => exact absurd hn he.2.2
  | stab k => rfl
  | pt p => rfl

section
variable {io : IterOrder SNode} {I J : Input} (h : SameReal io I J)
include h

theorem SameReal.erasureNodes : erasureNodes J = erasureNodes I := by
  unfold UnionFind.erasureNodes
  rw [h.nodes, h.real, List.filter_filter]
  refine List.filter_congr fun n _ => ?_
  by_cases hc : (realE I.E).any (fun e => decide (n ∈ e)) = true
  · obtain ⟨e, he, hn⟩ := List.any_eq_true.1 hc
    rw [hc, real_not_conn he (by simpa using hn)]
    rfl
  · rw [Bool.not_eq_true] at hc
    rw [hc]
    rfl

theorem SameReal.erasureEdges : erasureEdges J = erasureEdges I := by
  unfold UnionFind.erasureEdges
  rw [h.real]
  exact List.filter_congr fun e he => h.er e he

theorem SameReal.rootParity : rootParity J = rootParity I := by
  funext n
  unfold UnionFind.rootParity
  rw [h.odd]

theorem SameReal.initCluster : initCluster J = initCluster I := by
  funext hp l
  cases l with
  | nil => rfl
  | cons a l =>
    unfold UnionFind.initCluster
    rw [h.rootParity]

theorem SameReal.initClusters (cl : CompLib SNode) : initClusters cl J = initClusters cl I := by
  unfold UnionFind.initClusters
  rw [h.erasureNodes, h.erasureEdges, h.initCluster, h.nodes, List.filter_filter]
  simp only [Bool.and_self]

theorem SameReal.supportInit : supportInit J.E = supportInit I.E := by
  unfold UnionFind.supportInit
  rw [h.real]
  have : ∀ (l : List (Sym2 SNode)) (d : List (Sym2 SNode × Status)), (∀ e ∈ l, e ∈ realE I.E) →
      l.foldl (fun d e => PyDict.set d e (if erased J.E e then Status.grown else .empty)) d =
      l.foldl (fun d e => PyDict.set d e (if erased I.E e then Status.grown else .empty)) d := by
    intro l
    induction l with
    | nil => intros; rfl
    | cons a l ih =>
      intro d hl
      rw [List.foldl_cons, List.foldl_cons, h.er a (hl a (by simp))]
      exact ih _ fun e he => hl e (by simp [he])
  exact this _ _ fun e he => he

theorem SameReal.onBoundary (t : ℕ) (st : List (Sym2 SNode × Status)) (n : SNode) : onBoundary io t J st n = onBoundary io t I st n := by
  unfold UnionFind.onBoundary
  rw [h.out]

theorem SameReal.boundaryLoop (t : ℕ) (hp : Heap SNode) (st : List (Sym2 SNode × Status)) (root : SNode) : ∀ fuel node vis acc,
    boundaryLoop io t J hp st root fuel node vis acc = boundaryLoop io t I hp st root fuel node vis acc
  | 0, _, _, _ => rfl
  | fuel + 1, node, vis, acc => by
    unfold UnionFind.boundaryLoop
    simp only [h.onBoundary, SameReal.boundaryLoop t hp st root fuel]

theorem SameReal.initState (cl : CompLib SNode) : initState cl io J = initState cl io I := by
  unfold UnionFind.initState UnionFind.boundaryInit
  simp only [h.initClusters, h.supportInit, h.boundaryLoop]

theorem SameReal.growAll (t : ℕ) (s : St) (odd : List SNode) : growAll io t J s odd = growAll io t I s odd := by
  unfold UnionFind.growAll
  simp only [h.out]

theorem SameReal.fuse (t : ℕ) : fuse io t J = fuse io t I := by
  funext s e
  unfold UnionFind.fuse UnionFind.prune
  simp only [h.onBoundary]

theorem SameReal.round (t : ℕ) (s : St) (odd : List SNode) : round io t J s odd = round io t I s odd := by
  unfold UnionFind.round
  simp only [h.growAll, h.fuse]

theorem SameReal.unionFind : ∀ fuel t (s : St) (odd : List SNode), unionFind io J fuel t s odd = unionFind io I fuel t s odd
  | 0, _, _, [] => rfl
  | 0, _, _, _ :: _ => rfl
  | fuel + 1, _, _, [] => rfl
  | fuel + 1, t, s, c :: odd => by
    unfold UnionFind.unionFind
    simp only [h.round, SameReal.unionFind fuel]

theorem SameReal.treeParity : treeParity J = treeParity I := by
  funext par tree
  unfold UnionFind.treeParity
  simp only [h.odd]

end

theorem foldlM_inv {α β : Type} (f : β → α → Option β) (P : β → Prop) (hf : ∀ b a b', P b → f b a = some b' → P b') :
    ∀ (l : List α) (b b' : β), P b → l.foldlM f b = some b' → P b'
  | [], b, b', hb, h => by simp at h; rwa [← h]
  | a :: l, b, b', hb, h => by
    rw [List.foldlM_cons] at h
    obtain ⟨c, hc, h⟩ := Option.bind_eq_some_iff.1 h
    exact foldlM_inv f P hf l c b' (hf b a c hb hc) h

theorem grow_keys {st st' : List (Sym2 SNode × Status)} {e : SNode × SNode} {b : Bool} (h : grow st e = some (st', b)) :
    PyDict.keys st' = PyDict.keys st := by
  have hk : ∀ {x}, PyDict.get? st s(e.1, e.2) = some x → s(e.1, e.2) ∈ PyDict.keys st := fun hx =>
    List.mem_map.2 ⟨_, PyDict.get?_mem hx, rfl⟩
  unfold grow at h
  split at h
  · cases h
  all_goals
    rename_i hg
    simp only [Option.some.injEq, Prod.mk.injEq] at h
    obtain ⟨rfl, -⟩ := h
    first
    | rfl
    | exact PyDict.keys_set_of_mem _ (hk hg)

theorem growAll_keys {io : IterOrder SNode} {t : ℕ} {I : Input} {s : St} {odd : List SNode} {r} (h : growAll io t I s odd = some r) :
    PyDict.keys r.1 = PyDict.keys s.status := by
  unfold growAll at h
  obtain ⟨ns, -, h⟩ := Option.bind_eq_some_iff.1 h
  refine foldlM_inv _ (fun p => PyDict.keys p.1 = PyDict.keys s.status) (fun b a b' hb hf => ?_) _ _ _ rfl h
  obtain ⟨⟨st, g⟩, hg, hf⟩ := Option.bind_eq_some_iff.1 hf
  simp only [pure, Option.some.injEq] at hf
  rw [← hf]
  exact (grow_keys hg).trans hb

theorem fuse_status {io : IterOrder SNode} {t : ℕ} {I : Input} {s s' : St} {e : SNode × SNode} (h : fuse io t I s e = some s') :
    s'.status = s.status := by
  unfold fuse at h
  obtain ⟨⟨h1, r0⟩, -, h⟩ := Option.bind_eq_some_iff.1 h
  obtain ⟨⟨h2, r1⟩, -, h⟩ := Option.bind_eq_some_iff.1 h
  obtain ⟨r0', -, h⟩ := Option.bind_eq_some_iff.1 h
  obtain ⟨r1', -, h⟩ := Option.bind_eq_some_iff.1 h
  split at h
  · simp only [pure, Option.some.injEq] at h
    rw [← h]
  · obtain ⟨_, -, h⟩ := Option.bind_eq_some_iff.1 h
    obtain ⟨_, -, h⟩ := Option.bind_eq_some_iff.1 h
    obtain ⟨_, -, h⟩ := Option.bind_eq_some_iff.1 h
    simp only [pure, Option.some.injEq] at h
    rw [← h]

theorem round_keys {io : IterOrder SNode} {t : ℕ} {I : Input} {s : St} {odd : List SNode} {r} (h : round io t I s odd = some r) :
    PyDict.keys r.1.status = PyDict.keys s.status := by
  unfold UnionFind.round at h
  obtain ⟨⟨st, fl⟩, hg, h⟩ := Option.bind_eq_some_iff.1 h
  obtain ⟨s2, hf, h⟩ := Option.bind_eq_some_iff.1 h
  obtain ⟨⟨h3, roots⟩, -, h⟩ := Option.bind_eq_some_iff.1 h
  simp only [pure, Option.some.injEq] at h
  rw [← h]
  have := foldlM_inv (fuse io t I) (fun s => s.status = st) (fun b a b' hb hf => (fuse_status hf).trans hb) _ _ _ rfl hf
  exact (congrArg PyDict.keys this).trans (growAll_keys hg)

theorem unionFind_keys {io : IterOrder SNode} {I : Input} : ∀ {fuel t : ℕ} {s s' : St} {odd : List SNode},
    unionFind io I fuel t s odd = some s' → PyDict.keys s'.status = PyDict.keys s.status
  | fuel, t, s, s', [], h => by
    cases fuel <;> (unfold unionFind at h; rw [Option.some.injEq] at h; rw [h])
  | 0, t, s, s', c :: odd, h => by cases h
  | fuel + 1, t, s, s', c :: odd, h => by
    unfold unionFind at h
    obtain ⟨⟨s2, odd2⟩, hr, h⟩ := Option.bind_eq_some_iff.1 h
    exact (unionFind_keys h).trans (round_keys hr)

theorem grownEdges_same {io : IterOrder SNode} {I J : Input} (h : SameReal io I J) {cv cv' : List (Sym2 SNode × Option V)}
    (hcv : ∀ e ∈ realE I.E, PyDict.get? cv' e = PyDict.get? cv e) {st : List (Sym2 SNode × Status)} (hst : ∀ k ∈ PyDict.keys st, k ∈ realE I.E)
    (hnd : I.nodes.Nodup) : grownEdges J cv' st = grownEdges I cv st := by
  unfold grownEdges
  have key : ∀ l : List (Sym2 SNode × Status), (∀ x ∈ l, x.1 ∈ realE I.E) →
      l.mapM (fun x => match J.nodes.filter fun n => decide (n ∈ x.1) with
        | [a, b] => (PyDict.get? cv' s(a, b)).map fun q => (a, b, q)
        | _ => none) =
      l.mapM (fun x => match I.nodes.filter fun n => decide (n ∈ x.1) with
        | [a, b] => (PyDict.get? cv s(a, b)).map fun q => (a, b, q)
        | _ => none) := by
    intro l
    induction l with
    | nil => intros; rfl
    | cons x l ih =>
      intro hl
      have hx := hl x (by simp)
      have e1 : J.nodes.filter (fun n => decide (n ∈ x.1)) = I.nodes.filter fun n => decide (n ∈ x.1) := by
        rw [h.nodes, List.filter_filter]
        refine List.filter_congr fun n _ => ?_
        by_cases hn : n ∈ x.1
        · simp [hn, real_not_conn hx hn]
        · simp [hn]
      rw [List.mapM_cons, List.mapM_cons, ih fun y hy => hl y (by simp [hy]), e1]
      congr 1
      split
      · rename_i a b hab
        have hmem : ∀ n ∈ [a, b], n ∈ x.1 := fun n hn => by
          rw [← hab] at hn
          simpa using (List.mem_filter.1 hn).2
        have hne : a ≠ b := by
          have := hnd.filter fun n => decide (n ∈ x.1)
          rw [hab] at this
          simpa using this
        rw [← (Sym2.mem_and_mem_iff hne).1 ⟨hmem a (by simp), hmem b (by simp)⟩, hcv _ hx]
      · rfl
  refine key _ fun x hx => hst _ (List.mem_map.2 ⟨x, ?_, rfl⟩)
  exact List.mem_reverse.1 (List.mem_filter.1 hx).1

theorem forestNodes_same {io : IterOrder SNode} {I J : Input} (h : SameReal io I J) {es : List (SNode × SNode × Option V)}
    (hes : ∀ e ∈ es, s(e.1, e.2.1) ∈ realE I.E) : forestNodes J es = forestNodes I es := by
  unfold forestNodes
  rw [h.nodes, List.filter_filter]
  refine List.filter_congr fun n _ => ?_
  by_cases hc : es.any (fun e => decide (e.1 = n ∨ e.2.1 = n)) = true
  · obtain ⟨e, he, hn⟩ := List.any_eq_true.1 hc
    rw [decide_eq_true_eq] at hn
    rw [hc, real_not_conn (hes e he) (n := n) (by rcases hn with rfl | rfl <;> simp)]
    rfl
  · rw [Bool.not_eq_true] at hc
    rw [hc]
    rfl

theorem grownEdges_real {I : Input} {cv : List (Sym2 SNode × Option V)} {st : List (Sym2 SNode × Status)}
    (hst : ∀ k ∈ PyDict.keys st, k ∈ realE I.E) (hnd : I.nodes.Nodup) {es} (h : grownEdges I cv st = some es) :
    ∀ e ∈ es, s(e.1, e.2.1) ∈ realE I.E := by
  unfold grownEdges at h
  have key : ∀ (l : List (Sym2 SNode × Status)) es, (∀ x ∈ l, x.1 ∈ realE I.E) →
      l.mapM (fun x => match I.nodes.filter fun n => decide (n ∈ x.1) with
        | [a, b] => (PyDict.get? cv s(a, b)).map fun q => (a, b, q)
        | _ => none) = some es → ∀ e ∈ es, s(e.1, e.2.1) ∈ realE I.E := by
    intro l
    induction l with
    | nil =>
      intro es _ he
      simp only [List.mapM_nil, pure, Option.some.injEq] at he
      rw [← he]
      simp
    | cons x l ih =>
      intro es hl he
      rw [List.mapM_cons] at he
      obtain ⟨e0, h0, he⟩ := Option.bind_eq_some_iff.1 he
      obtain ⟨es', h1, he⟩ := Option.bind_eq_some_iff.1 he
      simp only [pure, Option.some.injEq] at he
      rw [← he]
      rintro e (_ | ⟨_, he⟩)
      · split at h0
        · rename_i a b hab
          have hmem : ∀ n ∈ [a, b], n ∈ x.1 := fun n hn => by
            rw [← hab] at hn
            simpa using (List.mem_filter.1 hn).2
          have hne : a ≠ b := by
            have := hnd.filter fun n => decide (n ∈ x.1)
            rw [hab] at this
            simpa using this
          obtain ⟨q, -, rfl⟩ := Option.map_eq_some_iff.1 h0
          rw [← (Sym2.mem_and_mem_iff hne).1 ⟨hmem a (by simp), hmem b (by simp)⟩]
          exact hl x (by simp)
        · cases h0
      · exact ih es' (fun y hy => hl y (by simp [hy])) h1 e he
  refine key _ _ (fun x hx => hst _ (List.mem_map.2 ⟨x, ?_, rfl⟩)) h
  exact List.mem_reverse.1 (List.mem_filter.1 hx).1

/-- Union-Find on two stabilizer graphs that differ only in the connectors. -/
theorem ufDecoder_same {io : IterOrder SNode} (cl : CompLib SNode) (sl : SpanLib SNode (Option V)) (fuel : ℕ) {SG SG' : StabGraph} {w : V → ℚ}
    {bits : V → Bool} (hI : Wf (ufInput SG w bits)) (h : SameReal io (ufInput SG w bits) (ufInput SG' w bits))
    (hcv : ∀ e ∈ realE (ufInput SG w bits).E, PyDict.get? SG'.edges e = PyDict.get? SG.edges e) :
    ufDecoder cl sl io fuel SG' w bits = ufDecoder cl sl io fuel SG w bits := by
  unfold ufDecoder
  simp only [h.initState, h.unionFind]
  refine Option.bind_congr fun r hr => ?_
  refine Option.bind_congr fun s' hs' => ?_
  have hk : ∀ k ∈ PyDict.keys s'.status, k ∈ realE (ufInput SG w bits).E := fun k hk => by
    rw [unionFind_keys hs'] at hk
    have hst : r.1.status = supportInit (ufInput SG w bits).E := by
      unfold initState at hr
      obtain ⟨bs, -, hr⟩ := Option.bind_eq_some_iff.1 hr
      simp only [pure, Option.some.injEq] at hr
      rw [← hr]
    rw [hst, supportInit_keys hI] at hk
    exact hk
  have e : spanningForest cl sl (ufInput SG' w bits) SG'.edges s'.status = spanningForest cl sl (ufInput SG w bits) SG.edges s'.status := by
    unfold spanningForest
    rw [grownEdges_same h hcv hk hI.nodup]
    refine Option.bind_congr fun es hes => ?_
    rw [forestNodes_same h (grownEdges_real hk hI.nodup hes), h.treeParity]
  rw [e]

/-! ### Removing the connectors of the graph of a code -/

theorem isConn_eq (n : SNode) : Viz.isConnector n = isConn n := by cases n <;> rfl

theorem get?_filter_key {K U : Type} [DecidableEq K] (p : K → Bool) (d : List (K × U)) {k : K} (hk : p k = true) :
    PyDict.get? (d.filter fun e => p e.1) k = PyDict.get? d k := by
  induction d with
  | nil => rfl
  | cons a d ih =>
    rw [List.filter_cons, PyDict.get?_cons]
    by_cases hp : p a.1 = true
    · rw [if_pos hp, PyDict.get?_cons, ih]
    · rw [if_neg hp, ih, if_neg]
      rintro rfl
      exact hp hk

theorem drop_weighted (SG : StabGraph) (w : V → ℚ) : weightedEdges (Viz.dropConnectors SG) w =
    (weightedEdges SG w).filter fun e => decide (SNode.low ∉ e.1 ∧ SNode.high ∉ e.1) := by
  unfold weightedEdges Viz.dropConnectors
  rw [List.filter_map]
  rfl

theorem keys_filter {K U : Type} (p : K → Bool) (d : List (K × U)) :
    PyDict.keys (d.filter fun e => p e.1) = (PyDict.keys d).filter p := by
  unfold PyDict.keys
  rw [List.filter_map]
  rfl

theorem keys_drop (SG : StabGraph) (w : V → ℚ) :
    PyDict.keys (weightedEdges (Viz.dropConnectors SG) w) = realE (weightedEdges SG w) := by
  rw [drop_weighted]
  exact keys_filter (fun e => decide (SNode.low ∉ e ∧ SNode.high ∉ e)) _

theorem perm_short {α : Type} {l l' : List α} (h : l.Perm l') {m : List α} (h' : l.Perm m) (hl : l.length ≤ 1) : l' = m := by
  match l, hl with
  | [], _ => rw [List.nil_perm.1 h, List.nil_perm.1 h']
  | [a], _ => exact (List.singleton_perm.1 h).symm.trans (List.singleton_perm.1 h')

theorem filter_pairs {n : SNode} (hn : isConn n = false) (l : List SNode) : (l.map fun m => (n, m)).filter (fun e => !isConn e.1 && !isConn e.2) =
    (l.filter fun m => !isConn m).map fun m => (n, m) := by
  induction l with
  | nil => rfl
  | cons a l ih =>
    rw [List.map_cons, List.filter_cons, List.filter_cons, ih]
    simp only [hn, Bool.not_false, Bool.true_and]
    split_ifs <;> rfl

theorem dropOut (io : IterOrder SNode) {code : Code} (h : IsCode code) (bk : Backend) (sp : SetPop) (w : V → ℚ) (bits : V → Bool) (t : ℕ) (n : SNode) :
    outEdges io t (ufInput (Viz.dropConnectors (stabGraph bk sp code)) w bits) n = outEdges io t (ufInput (stabGraph bk sp code) w bits) n := by
  unfold outEdges
  have hI := wf_code h bk sp w bits
  have hkeys : ∀ m, s(n, m) ∈ PyDict.keys (ufInput (Viz.dropConnectors (stabGraph bk sp code)) w bits).E ↔
      s(n, m) ∈ realE (ufInput (stabGraph bk sp code) w bits).E := fun m => by
    unfold ufInput
    rw [keys_drop]
  by_cases hn : isConn n = true
  · rw [List.filter_eq_nil_iff.2, List.filter_eq_nil_iff.2] <;>
    · intro e he
      obtain ⟨m, -, rfl⟩ := List.mem_map.1 he
      simp [hn]
  rw [Bool.not_eq_true] at hn
  set L := (ufInput (stabGraph bk sp code) w bits).nodes.filter
    fun m => decide (s(n, m) ∈ PyDict.keys (ufInput (stabGraph bk sp code) w bits).E) with hL
  have hJ : (ufInput (Viz.dropConnectors (stabGraph bk sp code)) w bits).nodes.filter
      (fun m => decide (s(n, m) ∈ PyDict.keys (ufInput (Viz.dropConnectors (stabGraph bk sp code)) w bits).E)) = L.filter fun m => !isConn m := by
    rw [hL, List.filter_filter]
    have : (ufInput (Viz.dropConnectors (stabGraph bk sp code)) w bits).nodes =
        (ufInput (stabGraph bk sp code) w bits).nodes.filter fun m => !isConn m := by
      unfold ufInput Viz.dropConnectors
      simp only [isConn_eq]
    rw [this, List.filter_filter]
    refine List.filter_congr fun m _ => ?_
    rw [Bool.eq_iff_iff]
    simp only [hkeys, realE, List.mem_filter, Bool.and_eq_true, decide_eq_true_eq, Bool.not_eq_true']
    constructor
    · rintro ⟨⟨h1, -⟩, h2⟩
      exact ⟨h2, h1⟩
    · rintro ⟨h2, h1⟩
      refine ⟨⟨h1, ?_, ?_⟩, h2⟩ <;>
      · rw [Sym2.mem_iff]
        rintro (rfl | rfl)
        · cases hn
        · cases h2
  rw [hJ]
  have hfm := fun l => filter_pairs (n := n) hn l
  rw [hfm, hfm]
  refine congrArg (List.map fun m => (n, m)) ?_
  by_cases hc : ∀ m ∈ L, isConn m = false
  · have e1 : L.filter (fun m => !isConn m) = L := List.filter_eq_self.2 fun m hm => by simp [hc m hm]
    rw [e1]
  · push Not at hc
    obtain ⟨c, hcL, hcc⟩ := hc
    rw [ne_eq, Bool.not_eq_false] at hcc
    have hlen : (L.filter fun m => !isConn m).length ≤ 1 := by
      -- a node next to a connector is a boundary point, and next to one stabilizer only
      have hcm := (List.mem_filter.1 hcL).2
      rw [decide_eq_true_eq] at hcm
      unfold ufInput at hcm
      rw [keys_weightedEdges, (h.stabGraph bk sp).1] at hcm
      obtain ⟨⟨e, cv⟩, hm, he⟩ := List.mem_map.1 hcm
      simp only at he
      subst he
      have hpt : ∃ p ∈ code.boundPoints, n = .pt p := by
        rcases mem_codeEdges.1 hm with ⟨p, hp, h1⟩ | ⟨p, hp, h1⟩ | ⟨i, j, hij, hj, hc, h1⟩ | ⟨k, p, hk, hp, hpk, h1⟩
        · have h2 := (Prod.mk.inj h1).1
          rw [Sym2.eq_iff] at h2
          rcases h2 with ⟨rfl, rfl⟩ | ⟨rfl, rfl⟩
          · cases hn
          · exact ⟨p, List.mem_of_mem_take hp, rfl⟩
        · have h2 := (Prod.mk.inj h1).1
          rw [Sym2.eq_iff] at h2
          rcases h2 with ⟨rfl, rfl⟩ | ⟨rfl, rfl⟩
          · cases hn
          · exact ⟨p, List.mem_of_mem_drop hp, rfl⟩
        · have h2 := (Prod.mk.inj h1).1
          rw [Sym2.eq_iff] at h2
          rcases h2 with ⟨rfl, rfl⟩ | ⟨rfl, rfl⟩ <;> cases hcc
        · have h2 := (Prod.mk.inj h1).1
          rw [Sym2.eq_iff] at h2
          rcases h2 with ⟨rfl, rfl⟩ | ⟨rfl, rfl⟩ <;> cases hcc
      obtain ⟨p, hp, rfl⟩ := hpt
      have hst : ∀ m ∈ L.filter (fun m => !isConn m), ∃ k, m = .stab k ∧ p ∈ code.stabs.getD k [] := by
        intro m hm
        rw [List.mem_filter, hL, List.mem_filter, decide_eq_true_eq, Bool.not_eq_true'] at hm
        obtain ⟨⟨-, h1⟩, h2⟩ := hm
        unfold ufInput at h1
        rw [keys_weightedEdges, (h.stabGraph bk sp).1] at h1
        obtain ⟨⟨e, cv⟩, hm, he⟩ := List.mem_map.1 h1
        simp only at he
        subst he
        rcases mem_codeEdges.1 hm with ⟨p, hp, h1⟩ | ⟨p, hp, h1⟩ | ⟨i, j, hij, hj, hc, h1⟩ | ⟨k, p', hk, hp, hpk, h1⟩ <;>
          have h3 := (Prod.mk.inj h1).1 <;> rw [Sym2.eq_iff] at h3 <;> rcases h3 with ⟨h4, h5⟩ | ⟨h4, h5⟩
        · cases h4
        · rw [h5] at h2; cases h2
        · cases h4
        · rw [h5] at h2; cases h2
        · cases h4
        · cases h4
        · cases h4
        · cases h4
          exact ⟨k, h5, hpk⟩
      have hnd : (L.filter fun m => !isConn m).Nodup := (hI.nodup.filter _).filter _
      match hl : L.filter fun m => !isConn m with
      | [] => simp
      | [a] => simp
      | a :: b :: l =>
        rw [hl] at hst hnd
        obtain ⟨k, rfl, hk⟩ := hst a (by simp)
        obtain ⟨k', rfl, hk'⟩ := hst b (by simp)
        have := h.ok.1.stabsOf_bound h.ok.2 hk hp
        rw [h.ok.1.stabsOf_bound h.ok.2 hk' hp, Finset.singleton_inj] at this
        subst this
        simp at hnd
    refine perm_short (l := L.filter fun m => !isConn m) ?_ ?_ hlen
    · have := ((io.perm t (L.filter fun m => !isConn m)).symm).filter fun m => !isConn m
      rwa [List.filter_filter, List.filter_congr (q := fun m => !isConn m) fun m _ => by simp] at this
    · exact (io.perm t L).symm.filter _

/-- Union-Find on the stabilizer graph of a code does not need the connectors. -/
theorem ufDecoder_drop (cl : CompLib SNode) (sl : SpanLib SNode (Option V)) (io : IterOrder SNode) (fuel : ℕ) {code : Code} (h : IsCode code)
    (bk : Backend) (sp : SetPop) (w : V → ℚ) (bits : V → Bool) :
    ufDecoder cl sl io fuel (Viz.dropConnectors (stabGraph bk sp code)) w bits = ufDecoder cl sl io fuel (stabGraph bk sp code) w bits := by
  refine ufDecoder_same cl sl fuel (wf_code h bk sp w bits) ⟨?_, ?_, fun e he => ?_, rfl, dropOut io h bk sp w bits⟩ fun e he => ?_
  · unfold ufInput Viz.dropConnectors
    simp only [isConn_eq]
  · show realE (weightedEdges (Viz.dropConnectors (stabGraph bk sp code)) w) = _
    have h1 : realE (weightedEdges (Viz.dropConnectors (stabGraph bk sp code)) w) =
      (PyDict.keys (weightedEdges (Viz.dropConnectors (stabGraph bk sp code)) w)).filter
        fun e => decide (SNode.low ∉ e ∧ SNode.high ∉ e) := rfl
    rw [h1, keys_drop]
    exact List.filter_eq_self.2 fun e he => (List.mem_filter.1 he).2
  · unfold erased
    have := (List.mem_filter.1 he).2
    show decide (PyDict.get? (weightedEdges (Viz.dropConnectors (stabGraph bk sp code)) w) e = some (-1)) = _
    rw [drop_weighted, get?_filter_key (fun e => decide (SNode.low ∉ e ∧ SNode.high ∉ e)) _ this]
    rfl
  · have := (List.mem_filter.1 he).2
    exact get?_filter_key (fun e => decide (SNode.low ∉ e ∧ SNode.high ∉ e)) _ this

end Flamingpy.UnionFind
