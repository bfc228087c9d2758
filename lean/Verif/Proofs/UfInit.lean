import Verif.Proofs.UfRound

/-! # The initial clusters -/

namespace Flamingpy.UnionFind

open Flamingpy SurfaceCode

section
variable {N : Type} [DecidableEq N]

theorem HInv.perm {ns ns' : List N} {p : N → Option Bool} {h : Heap N} {rep : N → N} {dep : N → ℕ}
    (H : HInv ns p h rep dep) (hp : ns.Perm ns') : HInv ns' p h rep dep := by
  have hm : ∀ {v}, v ∈ ns' → v ∈ ns := fun h => hp.mem_iff.2 h
  refine ⟨fun v hv => hp.mem_iff.1 (H.rep_mem v (hm hv)), fun v hv => H.rep_rep v (hm hv), fun v hv => H.root_iff v (hm hv),
    fun v hv => H.dep_root v (hm hv), fun v hv q hq => ?_, fun v hv => ?_, fun q c hc => ?_, fun v hv => ?_, fun v hv => ?_,
    fun v hv hb u hu => H.bnone v (hm hv) hb u (hm hu), fun v hv b hb => ?_, hp.length_eq ▸ H.len⟩
  · obtain ⟨a, b⟩ := H.par v (hm hv) q hq
    exact ⟨hp.mem_iff.1 a, b⟩
  · rw [← hp.countP_eq]; exact H.dep_lt v (hm hv)
  · obtain ⟨a, b, d⟩ := H.child q c hc
    exact ⟨hp.mem_iff.1 a, hp.mem_iff.1 b, d⟩
  · rw [← hp.countP_eq]; exact H.size v (hm hv)
  · rw [← hp.countP_eq]; exact H.parity v (hm hv)
  · obtain ⟨a, b⟩ := H.bsome v (hm hv) b hb
    exact ⟨hp.mem_iff.1 a, b⟩

/-- All nodes hang directly below their root. -/
def Flat (ns : List N) (h : Heap N) (rep : N → N) : Prop := ∀ v ∈ ns, ∀ q, h.parent v = some q → q = rep v

end

theorem initCluster_aux (I : Input) (done : List SNode) (rep0 : SNode → SNode) (root : SNode)
    (hrep0 : ∀ v ∈ done, rep0 v ∈ done) (rest : List SNode) :
    ∀ (mid : List SNode) (h : Heap SNode) (rep : SNode → SNode) (dep : SNode → ℕ),
    (done ++ root :: mid ++ rest).Nodup → (done ++ root :: mid ++ rest).length ≤ h.nodes.length →
    HInv (done ++ root :: mid) (rootParity I) h rep dep → (∀ v ∈ done, rep v = rep0 v) →
    (∀ v ∈ root :: mid, rep v = root) → Flat (done ++ root :: mid) h rep →
    ∃ rep' dep', HInv (done ++ root :: mid ++ rest) (rootParity I)
        (rest.foldl (fun h v => (union (mkRoot h v (rootParity I v)) root v).1) h) rep' dep' ∧
      (∀ v ∈ done, rep' v = rep0 v) ∧ (∀ v ∈ root :: mid ++ rest, rep' v = root) ∧
      Flat (done ++ root :: mid ++ rest) (rest.foldl (fun h v => (union (mkRoot h v (rootParity I v)) root v).1) h) rep' ∧
      (rest.foldl (fun h v => (union (mkRoot h v (rootParity I v)) root v).1) h).nodes = h.nodes := by
  induction rest with
  | nil =>
    intro mid h rep dep _ _ H h1 h2 h3
    exact ⟨rep, dep, by simpa using H, h1, by simpa using h2, by simpa using h3, rfl⟩
  | cons v rest ih =>
    intro mid h rep dep hnd hlen H h1 h2 h3
    have hv : v ∉ done ++ root :: mid := fun hm => by
      rw [List.nodup_append] at hnd
      exact hnd.2.2 v hm v (by simp) rfl
    have hroot : root ∈ done ++ root :: mid := by simp
    have hrv : root ≠ v := fun e => hv (e ▸ hroot)
    have H1 := H.mkRoot (v := v) hv (by simp only [List.length_append, List.length_cons] at hlen ⊢; omega)
    have hrr : Function.update rep v v root = root := by
      rw [Function.update_of_ne hrv, h2 root (by simp)]
    have hsz : (mkRoot h v (rootParity I v)).size v ≤ (mkRoot h v (rootParity I v)).size root := by
      have e1 : (mkRoot h v (rootParity I v)).size v = 1 := by simp [UnionFind.mkRoot]
      have e2 := H1.size root (by simp)
      rw [hrr] at e2
      rw [e1, e2]
      exact List.countP_pos_iff.2 ⟨root, by simp, by simpa using hrr⟩
    obtain ⟨big, small, h', e, hn, hc, hpar, _, _, H2⟩ := H1.union (r := root) (s := v) (by simp) (by simp) hrr
      (Function.update_self _ _ _) hrv
    have hbs : big = root ∧ small = v := by
      rcases hc with ⟨a, b, _⟩ | ⟨_, _, hlt⟩
      · exact ⟨a, b⟩
      · omega
    obtain ⟨rfl, rfl⟩ := hbs
    have hrep : ∀ u ∈ done ++ big :: mid, joinRep (Function.update rep small small) big small u = rep u := by
      intro u hu
      have hus : u ≠ small := fun e => hv (e ▸ hu)
      unfold joinRep
      rw [Function.update_of_ne hus, if_neg]
      exact fun e => hv (e ▸ H.rep_mem u hu)
    have hreps : joinRep (Function.update rep small small) big small small = big := by
      unfold joinRep; rw [if_pos (Function.update_self _ _ _)]
    have := ih (mid ++ [small]) h' _ _ (by simpa using hnd) (by rw [hn]; simpa [UnionFind.mkRoot] using hlen) (by simpa using H2)
      (fun u hu => by rw [hrep u (by simp [hu]), h1 u hu])
      (fun u hu => by
        rw [← List.cons_append, List.mem_append, List.mem_singleton] at hu
        rcases hu with hu | rfl
        · rw [hrep u (List.mem_append_right _ hu), h2 u hu]
        · exact hreps)
      (fun u hu q hq => by
        rw [hpar] at hq
        rw [← List.cons_append, ← List.append_assoc, List.mem_append, List.mem_singleton] at hu
        by_cases hus : u = small
        · subst hus
          rw [Function.update_self] at hq
          rw [hreps]
          exact (Option.some.inj hq).symm
        · rw [Function.update_of_ne hus] at hq
          rcases hu with hu | hu
          · rw [hrep u hu]
            refine h3 u hu q ?_
            simpa [UnionFind.mkRoot, hus] using hq
          · exact absurd hu hus)
    rw [List.foldl_cons, e]
    obtain ⟨rep', dep', a, b, c, d, f⟩ := this
    refine ⟨rep', dep', by simpa using a, b, by simpa using c, by simpa using d, ?_⟩
    rw [f, hn]
    rfl

theorem initCluster_spec (I : Input) (done : List SNode) (c : List SNode) (h : Heap SNode) (rep : SNode → SNode)
    (dep : SNode → ℕ) (hne : c ≠ []) (hnd : (done ++ c).Nodup) (hlen : (done ++ c).length ≤ h.nodes.length)
    (H : HInv done (rootParity I) h rep dep) (hf : Flat done h rep) :
    ∃ rep' dep', HInv (done ++ c) (rootParity I) (initCluster I h c) rep' dep' ∧ (∀ v ∈ done, rep' v = rep v) ∧
      (∀ r ∈ c.take 1, ∀ v ∈ c, rep' v = r) ∧ Flat (done ++ c) (initCluster I h c) rep' ∧ (initCluster I h c).nodes = h.nodes := by
  cases c with
  | nil => exact absurd rfl hne
  | cons root rest =>
    have hr : root ∉ done := fun hm => by
      rw [List.nodup_append] at hnd
      exact hnd.2.2 root hm root (by simp) rfl
    have H1 := H.mkRoot (v := root) hr (by simp only [List.length_append, List.length_cons] at hlen ⊢; omega)
    obtain ⟨rep', dep', a, b, c, d, e⟩ := initCluster_aux I done rep root H.rep_mem rest [] _ _ _ (by simpa using hnd)
      (by simpa [UnionFind.mkRoot] using hlen) H1
      (fun v hv => Function.update_of_ne (by rintro rfl; exact hr hv) _ _) (fun v hv => by
        rw [List.mem_singleton.1 hv, Function.update_self])
      (fun v hv q hq => by
        simp only [UnionFind.mkRoot] at hq
        by_cases hvr : v = root
        · subst hvr; rw [Function.update_self] at hq; cases hq
        · rw [Function.update_of_ne hvr] at hq
          rw [Function.update_of_ne hvr]
          refine hf v ?_ q hq
          simpa [hvr] using hv)
    exact ⟨rep', dep', by simpa [initCluster] using a, b, fun r hr v hv => by
      rw [List.take_succ_cons, List.take_zero, List.mem_singleton] at hr
      rw [hr]
      exact c v (by simpa using hv), by simpa [initCluster] using d, e⟩

theorem initFold_spec (I : Input) (comps : List (List SNode)) :
    ∀ (done : List SNode) (h : Heap SNode) (rep : SNode → SNode) (dep : SNode → ℕ), [] ∉ comps →
    (done ++ comps.flatten).Nodup → (done ++ comps.flatten).length ≤ h.nodes.length →
    HInv done (rootParity I) h rep dep → Flat done h rep →
    ∃ rep' dep', HInv (done ++ comps.flatten) (rootParity I) (comps.foldl (initCluster I) h) rep' dep' ∧
      (∀ v ∈ done, rep' v = rep v) ∧ (∀ c ∈ comps, ∀ r ∈ c.take 1, ∀ v ∈ c, rep' v = r) ∧
      Flat (done ++ comps.flatten) (comps.foldl (initCluster I) h) rep' ∧ (comps.foldl (initCluster I) h).nodes = h.nodes := by
  induction comps with
  | nil => intro done h rep dep _ _ _ H hf; exact ⟨rep, dep, by simpa using H, fun _ _ => rfl, by simp, by simpa using hf, rfl⟩
  | cons c comps ih =>
    intro done h rep dep hne hnd hlen H hf
    simp only [List.mem_cons, not_or] at hne
    rw [List.flatten_cons, ← List.append_assoc] at hnd hlen
    have hndc : (done ++ c).Nodup := hnd.sublist (List.sublist_append_left _ _)
    obtain ⟨rep1, dep1, H1, a1, b1, f1, n1⟩ := initCluster_spec I done c h rep dep (Ne.symm hne.1) hndc
      (by simp only [List.length_append] at hlen ⊢; omega) H hf
    obtain ⟨rep2, dep2, H2, a2, b2, f2, n2⟩ := ih (done ++ c) _ rep1 dep1 hne.2 hnd (by rw [n1]; exact hlen) H1 f1
    refine ⟨rep2, dep2, by simpa using H2, fun v hv => ?_, fun c' hc' r hr v hv => ?_, by simpa using f2, ?_⟩
    · rw [a2 v (by simp [hv]), a1 v hv]
    · rcases List.mem_cons.1 hc' with rfl | hc'
      · rw [a2 v (by simp [hv]), b1 r hr v hv]
      · exact b2 c' hc' r hr v hv
    · rw [List.foldl_cons, n2, n1]

theorem roots_sublist {A : Type} (comps : List (List A)) : (comps.flatMap fun c => c.take 1).Sublist comps.flatten := by
  induction comps with
  | nil => exact List.Sublist.refl _
  | cons c comps ih =>
    rw [List.flatMap_cons, List.flatten_cons]
    exact (List.take_sublist 1 c).append ih

theorem erasureNodes_sub {I : Input} (hI : Wf I) {v : SNode} (hv : v ∈ erasureNodes I) : v ∈ I.nodes ∧ isConn v = false := by
  refine ⟨List.mem_of_mem_filter hv, ?_⟩
  obtain ⟨e, he, hve⟩ := (mem_erasureNodes hI).1 hv
  induction e using Sym2.ind with
  | _ a b =>
    obtain ⟨_, h1, h2⟩ := mem_realE.1 he
    rcases Sym2.mem_iff.1 hve with rfl | rfl
    · exact h1
    · exact h2

/-- The clusters made by `initialize_cluster_trees`. -/
theorem initClusters_spec (cl : CompLib SNode) {I : Input} (hI : Wf I) :
    ∃ rep dep, HInv (erasureNodes I) (rootParity I) (initClusters cl I).1 rep dep ∧
      Flat (erasureNodes I) (initClusters cl I).1 rep ∧
      (initClusters cl I).1.nodes = (I.nodes.filter fun n => !isConn n) ∧
      (∀ u ∈ erasureNodes I, ∀ v ∈ erasureNodes I, rep u = rep v ↔ Conn (erasureEdges I) u v) ∧
      (initClusters cl I).2.1.Nodup ∧
      (∀ r, r ∈ (initClusters cl I).2.1 ↔ r ∈ erasureNodes I ∧ rep r = r) ∧
      ∀ r, r ∈ (initClusters cl I).2.2 ↔ r ∈ (initClusters cl I).2.1 ∧ (initClusters cl I).1.parity r = true := by
  have hperm := cl.perm (erasureNodes I) (erasureEdges I) (erasureNodes_nodup hI)
  have hends : ∀ e ∈ erasureEdges I, ∀ v ∈ e, v ∈ erasureNodes I := fun e he v hv =>
    (mem_erasureNodes hI).2 ⟨e, List.mem_of_mem_filter he, hv⟩
  have hcomp := cl.comp (erasureNodes I) (erasureEdges I) hends
  have hnd := hperm.nodup_iff.2 (erasureNodes_nodup hI)
  obtain ⟨comps, hcdef⟩ : ∃ c, c = cl.find (erasureNodes I) (erasureEdges I) := ⟨_, rfl⟩
  have hne := cl.nonempty (erasureNodes I) (erasureEdges I)
  rw [← hcdef] at hperm hcomp hnd hne
  have hlen : comps.flatten.length ≤ (newNodes (I.nodes.filter fun n => !isConn n)).nodes.length := by
    apply List.Subperm.length_le
    apply List.subperm_of_subset hnd
    intro v hv
    have := erasureNodes_sub hI (hperm.mem_iff.1 hv)
    simp [newNodes, this.1, this.2]
  obtain ⟨rep, dep, H, _, hr, hf, hn⟩ := initFold_spec I comps [] (newNodes (I.nodes.filter fun n => !isConn n)) id (fun _ => 0)
    hne (by simpa using hnd) (by simpa using hlen) (HInv.new _ _) (fun v hv => absurd hv (by simp))
  rw [List.nil_append] at H hf
  have H' := H.perm hperm
  have hof : ∀ v ∈ erasureNodes I, ∃ c ∈ comps, v ∈ c ∧ ∃ r ∈ c.take 1, r ∈ c ∧ rep v = r ∧ rep r = r := by
    intro v hv
    obtain ⟨c, hc, hvc⟩ := List.mem_flatten.1 (hperm.mem_iff.2 hv)
    cases c with
    | nil => exact absurd hc hne
    | cons r rest => exact ⟨r :: rest, hc, hvc, r, by simp, by simp, hr _ hc r (by simp) v hvc, hr _ hc r (by simp) r (by simp)⟩
  have hcn : ∀ c ∈ comps, ∀ v ∈ c, v ∈ erasureNodes I := fun c hc v hv =>
    hperm.mem_iff.1 (List.mem_flatten.2 ⟨c, hc, hv⟩)
  unfold initClusters
  rw [← hcdef]
  refine ⟨rep, dep, H', fun v hv => hf v (hperm.mem_iff.2 hv), hn, ?_, hnd.sublist (roots_sublist comps), ?_, ?_⟩
  · intro u hu v hv
    obtain ⟨c, hc, huc, r, hrt, hrc, hur, hrr⟩ := hof u hu
    constructor
    · intro e
      obtain ⟨c', hc', hvc', r', hrt', hrc', hvr', hrr'⟩ := hof v hv
      have h1 := (hcomp c hc u huc r (hcn c hc r hrc)).1 hrc
      have h2 := (hcomp c' hc' v hvc' r' (hcn c' hc' r' hrc')).1 hrc'
      have : r = r' := by rw [← hur, ← hvr', e]
      rw [← this] at h2
      exact h1.trans h2.symm
    · intro hc'
      have hvc := (hcomp c hc u huc v hv).2 hc'
      rw [hur, hr c hc r hrt v hvc]
  · intro r
    rw [List.mem_flatMap]
    constructor
    · rintro ⟨c, hc, hrc⟩
      have hrc' := List.mem_of_mem_take hrc
      exact ⟨hcn c hc r hrc', hr c hc r hrc r hrc'⟩
    · rintro ⟨hrn, hrr⟩
      obtain ⟨c, hc, _, r', hrt, _, e, _⟩ := hof r hrn
      exact ⟨c, hc, by rw [← hrr, e]; exact hrt⟩
  · intro r
    rw [List.mem_filter]

/-! ### Boundaries of the initial clusters -/

theorem findChild_flat (io : IterOrder SNode) (t : ℕ) (h : Heap SNode) (visited : List SNode) (r : SNode) (fuel : ℕ)
    (hch : ∀ c ∈ h.children r, c ∈ h.nodes ∧ h.children c = ∅) (hfuel : 0 < fuel) :
    (findChild io t h visited fuel r = r ∧ ∀ c ∈ h.children r, c ∈ visited) ∨
      (findChild io t h visited fuel r ∈ h.children r ∧ findChild io t h visited fuel r ∉ visited) := by
  have hmem : ∀ c, c ∈ io.ord t (h.nodes.filter fun c => decide (c ∈ h.children r)) ↔ c ∈ h.children r := fun c => by
    rw [(io.perm t _).mem_iff, List.mem_filter, decide_eq_true_eq]
    exact ⟨fun h => h.2, fun hc => ⟨(hch c hc).1, hc⟩⟩
  obtain ⟨fuel, rfl⟩ : ∃ n, fuel = n + 1 := ⟨fuel - 1, by omega⟩
  rw [findChild]
  cases hf : (io.ord t (h.nodes.filter fun c => decide (c ∈ h.children r))).find? fun c => decide (c ∉ visited) with
  | none =>
    refine Or.inl ⟨rfl, fun c hc => ?_⟩
    have := List.find?_eq_none.1 hf c ((hmem c).2 hc)
    simpa using this
  | some c =>
    have h1 := (hmem c).1 (List.mem_of_find?_eq_some hf)
    have h2 := List.find?_some hf
    have h3 : findChild io t h visited fuel c = c := by
      cases fuel with
      | zero => rfl
      | succ n =>
        rw [findChild, (hch c h1).2]
        have : (io.ord t (h.nodes.filter fun c => decide (c ∈ (∅ : Finset SNode)))) = [] := by
          apply List.Perm.eq_nil
          refine (io.perm t _).trans ?_
          rw [List.filter_eq_nil_iff.2 (by simp)]
        rw [this]
        rfl
    simp only [h3]
    exact Or.inr ⟨h1, by simpa using h2⟩

theorem boundaryLoop_spec (io : IterOrder SNode) (t : ℕ) {I : Input} (hI : Wf I) (h : Heap SNode)
    {st : List (Sym2 SNode × Status)} (S : SInv I st) (r : SNode)
    (hch : ∀ c ∈ h.children r, c ∈ h.nodes ∧ h.children c = ∅ ∧ h.parent c = some r ∧ c ≠ r) (hpos : 0 < h.nodes.length)
    (fuel : ℕ) : ∀ (visited acc : List SNode), (h.children r \ visited.toFinset).card < fuel →
    (∀ u ∈ visited, Open I st u → u ∈ acc) → (∀ u ∈ acc, u ∈ visited ∧ u ∈ h.children r) → acc.Nodup →
    ∃ l, boundaryLoop io t I h st r fuel r visited acc = some l ∧
      (∀ u, u ∈ h.children r ∨ u = r → Open I st u → u ∈ l) ∧ l.Nodup ∧ ∀ u ∈ l, u ∈ h.children r ∨ u = r := by
  induction fuel with
  | zero => intro _ _ h; omega
  | succ fuel ih =>
    intro visited acc hfuel hacc hav hnd
    rw [boundaryLoop]
    obtain ⟨n, hn⟩ : ∃ n, n = findChild io t h visited h.nodes.length r := ⟨_, rfl⟩
    rw [← hn]
    obtain ⟨b, hb, hb'⟩ := onBoundary_spec hI S io t n
    simp only [hb, Option.bind_eq_bind, Option.bind_some]
    rcases findChild_flat io t h visited r h.nodes.length (fun c hc => ⟨(hch c hc).1, (hch c hc).2.1⟩) hpos with ⟨h1, h2⟩ | ⟨h1, h2⟩
    · rw [← hn] at h1
      rw [if_pos h1]
      refine ⟨_, rfl, fun u hu ho => ?_, ?_, fun u hu => ?_⟩
      · rcases hu with hu | hu
        · have := hacc u (h2 u hu) ho
          cases b
          · exact this
          · exact List.mem_append_left _ this
        · have : b = true := hb'.2 (by rw [h1, ← hu]; exact ho)
          rw [if_pos this, h1, hu]
          simp
      · cases b
        · exact hnd
        · simp only [if_true]
          rw [List.nodup_append]
          refine ⟨hnd, by simp, fun x hx y hy => ?_⟩
          rw [List.mem_singleton, h1] at hy
          rintro rfl
          exact (hch x (hav x hx).2).2.2.2 hy
      · cases b
        · exact Or.inl (hav u hu).2
        · simp only [if_true] at hu
          rcases List.mem_append.1 hu with hu | hu
          · exact Or.inl (hav u hu).2
          · rw [List.mem_singleton, h1] at hu
            exact Or.inr hu
    · rw [← hn] at h1 h2
      obtain ⟨_, _, hp, hnr⟩ := hch n h1
      rw [if_neg hnr, hp]
      simp only [Option.bind_some]
      refine ih (visited ++ [n]) _ ?_ (fun u hu ho => ?_) (fun u hu => ?_) ?_
      · have : (h.children r \ (visited ++ [n]).toFinset).card < (h.children r \ visited.toFinset).card := by
          apply Finset.card_lt_card
          rw [Finset.ssubset_iff_of_subset]
          · refine ⟨n, by simp [h1, h2], by simp⟩
          · intro x hx
            simp only [Finset.mem_sdiff, List.mem_toFinset, List.mem_append, not_or] at hx ⊢
            exact ⟨hx.1, hx.2.1⟩
        omega
      · rcases List.mem_append.1 hu with hu | hu
        · have := hacc u hu ho
          cases b
          · exact this
          · exact List.mem_append_left _ this
        · rw [List.mem_singleton] at hu
          have : b = true := hb'.2 (hu ▸ ho)
          rw [if_pos this, hu]
          simp
      · cases b
        · exact ⟨List.mem_append_left _ (hav u hu).1, (hav u hu).2⟩
        · simp only [if_true] at hu
          rcases List.mem_append.1 hu with hu | hu
          · exact ⟨List.mem_append_left _ (hav u hu).1, (hav u hu).2⟩
          · rw [List.mem_singleton] at hu
            exact ⟨by simp [hu], hu ▸ h1⟩
      · cases b
        · exact hnd
        · simp only [if_true]
          rw [List.nodup_append]
          refine ⟨hnd, by simp, fun x hx y hy => ?_⟩
          rw [List.mem_singleton] at hy
          rintro rfl
          exact h2 (hy ▸ (hav x hx).1)

/-! ### The initial state -/

theorem supportInit_eq {I : Input} (hI : Wf I) :
    supportInit I.E = (realE I.E).map fun e => (e, if erased I.E e then Status.grown else .empty) := by
  unfold supportInit
  have := PyDict.foldl_set_nodup ((realE I.E).map fun e => (e, if erased I.E e then Status.grown else .empty)) []
    (by simpa [PyDict.keys, Function.comp_def] using realE_nodup hI)
  rw [List.foldl_map] at this
  rw [this, List.nil_append]

theorem supportInit_keys {I : Input} (hI : Wf I) : PyDict.keys (supportInit I.E) = realE I.E := by
  rw [supportInit_eq hI]
  simp [PyDict.keys, Function.comp_def]

theorem supportInit_inv {I : Input} (hI : Wf I) : SInv I (supportInit I.E) := by
  refine ⟨?_, fun k => ?_⟩
  · rw [supportInit_keys hI]; exact realE_nodup hI
  · rw [supportInit_keys hI]

theorem supportInit_grown {I : Input} (hI : Wf I) (k : Sym2 SNode) : k ∈ grownL (supportInit I.E) ↔ k ∈ erasureEdges I := by
  rw [mem_grownL, lvl_two, PyDict.get?_iff_mem (supportInit_inv hI).nodup, supportInit_eq hI, List.mem_map]
  unfold erasureEdges
  rw [List.mem_filter]
  constructor
  · rintro ⟨e, he, h⟩
    obtain ⟨rfl, h2⟩ := Prod.mk.inj h
    refine ⟨he, ?_⟩
    split_ifs at h2 with hc
    · exact hc
  · rintro ⟨h1, h2⟩
    exact ⟨k, h1, by rw [if_pos h2]⟩

/-- The state before the growth. -/
theorem initState_exact (cl : CompLib SNode) (io : IterOrder SNode) {I : Input} (hI : Wf I) :
    ∃ s odd rep dep, initState cl io I = some (s, odd) ∧ s.status = supportInit I.E ∧
      CInv I s (grownL s.status) odd rep dep ∧ (∀ c ∈ odd, rep c = c) ∧ (∀ c ∈ odd, s.heap.parity c = true) ∧
      ∀ v ∈ erasureNodes I, s.heap.parity (rep v) = true → rep v ∈ odd := by
  obtain ⟨rep, dep, H, hflat, hnodes, hconn, hrnd, hroots, hodd⟩ := initClusters_spec cl hI
  obtain ⟨h, roots, odd, hi⟩ : ∃ h roots odd, initClusters cl I = (h, roots, odd) := ⟨_, _, _, rfl⟩
  rw [hi] at H hflat hnodes hrnd hroots hodd
  simp only at H hflat hnodes hrnd hroots hodd
  have hnn : ∀ v ∈ erasureNodes I, v ∈ h.nodes := fun v hv => by
    rw [hnodes]
    have := erasureNodes_sub hI hv
    simp [this.1, this.2]
  have hbd : ∀ r ∈ roots, ∃ l, boundaryInit io 0 I h (supportInit I.E) r = some l ∧
      (∀ u ∈ erasureNodes I, rep u = r → Open I (supportInit I.E) u → u ∈ l) ∧ l.Nodup ∧
        ∀ u ∈ l, u ∈ erasureNodes I ∧ rep u = r := by
    intro r hr
    obtain ⟨hrn, hrr⟩ := (hroots r).1 hr
    have hch : ∀ c ∈ h.children r, c ∈ h.nodes ∧ h.children c = ∅ ∧ h.parent c = some r ∧ c ≠ r := by
      intro c hc
      obtain ⟨_, hcn, hp⟩ := H.child r c hc
      have hcr : c ≠ r := by
        rintro rfl
        rw [(H.root_iff c hrn).2 hrr] at hp
        cases hp
      refine ⟨hnn c hcn, ?_, hp, hcr⟩
      rw [Finset.eq_empty_iff_forall_notMem]
      intro x hx
      obtain ⟨_, hxn, hpx⟩ := H.child c x hx
      have h1 := hflat x hxn c hpx
      have h2 := H.rep_rep x hxn
      rw [← h1] at h2
      rw [(H.root_iff c hcn).2 h2] at hp
      cases hp
    have hpos : 0 < h.nodes.length := List.length_pos_of_mem (hnn r hrn)
    obtain ⟨l, hl, hl', nl, ml⟩ := boundaryLoop_spec io 0 hI h (supportInit_inv hI) r hch hpos h.nodes.length [] [] (by
      have hsub : insert r (h.children r) ⊆ h.nodes.toFinset := by
        intro x hx
        rw [Finset.mem_insert] at hx
        rw [List.mem_toFinset]
        rcases hx with rfl | hx
        · exact hnn x hrn
        · exact (hch x hx).1
      have h1 := Finset.card_le_card hsub
      rw [Finset.card_insert_of_notMem (fun hc => (hch r hc).2.2.2 rfl)] at h1
      have h2 := List.toFinset_card_le h.nodes
      simp only [List.toFinset_nil, Finset.sdiff_empty]
      omega) (by simp) (by simp) List.nodup_nil
    refine ⟨l, hl, fun u hu hur ho => hl' u ?_ ho, nl, fun u hu => ?_⟩
    swap
    · rcases ml u hu with h1 | h1
      · obtain ⟨_, hun, hp⟩ := H.child r u h1
        exact ⟨hun, (hflat u hun r hp).symm⟩
      · rw [h1]; exact ⟨hrn, hrr⟩
    by_cases hue : u = r
    · exact Or.inr hue
    · refine Or.inl ?_
      cases hp : h.parent u with
      | none => exact absurd ((H.root_iff u hu).1 hp) (by rw [hur]; exact Ne.symm hue)
      | some q =>
        have h1 := hflat u hu q hp
        have h2 := (H.par u hu q hp).2.2.2
        rwa [h1, hur] at h2
  have hm : roots.mapM (fun r => (boundaryInit io 0 I h (supportInit I.E) r).map fun b => (r, b)) =
      some (roots.map fun r => (r, (boundaryInit io 0 I h (supportInit I.E) r).getD [])) := by
    apply mapM_some'
    intro r hr
    obtain ⟨l, e, _⟩ := hbd r hr
    rw [e]; rfl
  obtain ⟨bs, hbs⟩ : ∃ l, l = roots.map fun r => (r, (boundaryInit io 0 I h (supportInit I.E) r).getD []) := ⟨_, rfl⟩
  have hkeys : PyDict.keys bs = roots := by
    rw [hbs]; simp [PyDict.keys, Function.comp_def]
  have hget : ∀ r ∈ roots, PyDict.get? (PyDict.ofPairs bs) r = boundaryInit io 0 I h (supportInit I.E) r := by
    intro r hr
    obtain ⟨l, e, _⟩ := hbd r hr
    rw [PyDict.ofPairs_nodup _ (by rw [hkeys]; exact hrnd), e, PyDict.get?_iff_mem (by rw [hkeys]; exact hrnd), hbs]
    exact List.mem_map.2 ⟨r, hr, by rw [e]; rfl⟩
  have hrt : ∀ v ∈ erasureNodes I, rep v ∈ roots := fun v hv => (hroots _).2 ⟨H.rep_mem v hv, H.rep_rep v hv⟩
  refine ⟨⟨h, supportInit I.E, fun r => PyDict.get? (PyDict.ofPairs bs) r⟩, odd, rep, dep, ?_, rfl,
    ⟨H, supportInit_inv hI, fun u hu v hv => (hconn u hu v hv).trans ?_, fun v hv => ?_, ?_, fun c hc => ?_, fun v hv ho => ?_⟩,
    fun c hc => ?_, fun c hc => ((hodd c).1 hc).2, fun v hv hp => (hodd _).2 ⟨hrt v hv, hp⟩⟩
  · unfold initState
    rw [hi]
    simp only
    rw [hm, ← hbs]
    rfl
  · exact ⟨fun hc => hc.mono fun k hk => (supportInit_grown hI k).2 hk, fun hc => hc.mono fun k hk => (supportInit_grown hI k).1 hk⟩
  · obtain ⟨l, e, hl⟩ := hbd _ (hrt v hv)
    exact ⟨l, by simp only; rw [hget _ (hrt v hv), e], hl⟩
  · have : odd = (initClusters cl I).2.2 := by rw [hi]
    have h2 : roots = (initClusters cl I).2.1 := by rw [hi]
    rw [this]
    unfold initClusters
    refine List.Nodup.filter _ ?_
    rw [h2] at hrnd
    exact hrnd
  · exact ((hroots c).1 ((hodd c).1 hc).1).1
  · exact ⟨rep v, (hodd _).2 ⟨hrt v hv, ((H.oddCls hv).2 ho).1⟩, H.rep_rep v hv⟩
  · exact ((hroots c).1 ((hodd c).1 hc).1).2

/-- The state before the growth. -/
theorem initState_spec (cl : CompLib SNode) (io : IterOrder SNode) {I : Input} (hI : Wf I) :
    ∃ s odd rep dep, initState cl io I = some (s, odd) ∧ s.status = supportInit I.E ∧
      CInv I s (grownL s.status) odd rep dep ∧ ∀ c ∈ odd, rep c = c := by
  obtain ⟨s, odd, rep, dep, h1, h2, h3, h4, _⟩ := initState_exact cl io hI
  exact ⟨s, odd, rep, dep, h1, h2, h3, h4⟩

end Flamingpy.UnionFind
