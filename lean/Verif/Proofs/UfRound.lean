import Verif.Proofs.UfGrow

/-! # One round of the growth -/

namespace Flamingpy.UnionFind

open Flamingpy SurfaceCode

/-- The class of `v` has odd parity and no boundary point. -/
def OddCls {N : Type} [DecidableEq N] (ns : List N) (p : N → Option Bool) (rep : N → N) (v : N) : Prop :=
  (ns.countP fun u => decide (rep u = rep v ∧ p u = some true)) % 2 = 1 ∧ ∀ u ∈ ns, rep u = rep v → p u ≠ none

theorem HInv.oddCls {N : Type} [DecidableEq N] {ns : List N} {p : N → Option Bool} {h : Heap N} {rep : N → N} {dep : N → ℕ}
    (H : HInv ns p h rep dep) {v : N} (hv : v ∈ ns) :
    (h.parity (rep v) = true ∧ h.boundary (rep v) = none) ↔ OddCls ns p rep v := by
  rw [H.parity v hv, decide_eq_true_eq]
  unfold OddCls
  refine and_congr_right fun _ => ⟨H.bnone v hv, fun hall => ?_⟩
  by_contra hc
  obtain ⟨b, hb'⟩ := Option.ne_none_iff_exists'.1 hc
  obtain ⟨h1, h2, h3⟩ := H.bsome v hv b hb'
  exact hall b h1 h2 h3

theorem OddCls.join {N : Type} [DecidableEq N] {ns : List N} {p : N → Option Bool} {rep : N → N} {r s big small : N}
    (hne : r ≠ s) (h : big = r ∧ small = s ∨ big = s ∧ small = r) {a b : N} (ha : rep a = r) (hb : rep b = s)
    {v : N} (ho : OddCls ns p (joinRep rep big small) v) :
    ∃ x, (x = v ∨ x = a ∨ x = b) ∧ OddCls ns p rep x ∧ joinRep rep big small x = joinRep rep big small v := by
  have hj := joinRep_eq rep hne h
  by_cases hv : rep v = r ∨ rep v = s
  · have hcls : ∀ u, joinRep rep big small u = joinRep rep big small v ↔ rep u = r ∨ rep u = s := by
      intro u
      rw [hj]
      rcases hv with hv | hv <;> rw [hv] <;> constructor <;> intro hh
      · rcases hh with h1 | ⟨h1, h2⟩ | ⟨h1, h2⟩ <;> simp_all
      · rcases hh with h1 | h1 <;> simp_all
      · rcases hh with h1 | ⟨h1, h2⟩ | ⟨h1, h2⟩ <;> simp_all
      · rcases hh with h1 | h1 <;> simp_all
    obtain ⟨h1, h2⟩ := ho
    have hsum : (ns.countP fun u => decide (joinRep rep big small u = joinRep rep big small v ∧ p u = some true)) =
        (ns.countP fun u => decide (rep u = r ∧ p u = some true)) + ns.countP fun u => decide (rep u = s ∧ p u = some true) := by
      apply countP_split
      · intro u _
        rw [Bool.eq_iff_iff]
        simp only [decide_eq_true_eq, Bool.or_eq_true, hcls]
        tauto
      · intro u _ h1
        simp only [decide_eq_true_eq, decide_eq_false_iff_not] at h1 ⊢
        rintro ⟨h2, _⟩
        exact hne (h1.1.symm.trans h2)
    rw [hsum] at h1
    by_cases hp : (ns.countP fun u => decide (rep u = r ∧ p u = some true)) % 2 = 1
    · refine ⟨a, Or.inr (Or.inl rfl), ⟨by rw [ha]; exact hp, fun u hu hua => h2 u hu ((hcls u).2 (Or.inl (hua.trans ha)))⟩,
        (hcls a).2 (Or.inl ha)⟩
    · refine ⟨b, Or.inr (Or.inr rfl), ⟨by rw [hb]; omega, fun u hu hub => h2 u hu ((hcls u).2 (Or.inr (hub.trans hb)))⟩,
        (hcls b).2 (Or.inr hb)⟩
  · push Not at hv
    have hcls : ∀ u, joinRep rep big small u = joinRep rep big small v ↔ rep u = rep v := by
      intro u
      rw [hj]
      exact ⟨fun hh => hh.elim id (fun hh => hh.elim (fun hh => absurd hh.2 hv.2) fun hh => absurd hh.2 hv.1), Or.inl⟩
    refine ⟨v, Or.inl rfl, ?_, rfl⟩
    unfold OddCls at ho ⊢
    simpa only [hcls] using ho

/-- The invariant of the growth; `D` are the edges whose ends have been fused. -/
structure CInv (I : Input) (s : St) (D : List (Sym2 SNode)) (odd : List SNode) (rep : SNode → SNode) (dep : SNode → ℕ) :
    Prop where
  heap : HInv (erasureNodes I) (rootParity I) s.heap rep dep
  status : SInv I s.status
  conn : ∀ u ∈ erasureNodes I, ∀ v ∈ erasureNodes I, rep u = rep v ↔ Conn D u v
  bnd : ∀ v ∈ erasureNodes I, ∃ l, s.bnd (rep v) = some l ∧
    (∀ u ∈ erasureNodes I, rep u = rep v → Open I s.status u → u ∈ l) ∧
    l.Nodup ∧ ∀ u ∈ l, u ∈ erasureNodes I ∧ rep u = rep v
  odd_nodup : odd.Nodup
  odd_mem : ∀ c ∈ odd, c ∈ erasureNodes I
  odd : ∀ v ∈ erasureNodes I, OddCls (erasureNodes I) (rootParity I) rep v → ∃ c ∈ odd, rep c = rep v

theorem fuse_spec {I : Input} (hI : Wf I) (io : IterOrder SNode) (t : ℕ) {s : St} {D : List (Sym2 SNode)} {odd : List SNode}
    {rep : SNode → SNode} {dep : SNode → ℕ} (H : CInv I s D odd rep dep) (e : SNode × SNode)
    (he : s(e.1, e.2) ∈ realE I.E) :
    ∃ s' rep' dep', fuse io t I s e = some s' ∧ s'.status = s.status ∧ CInv I s' (s(e.1, e.2) :: D) odd rep' dep' := by
  obtain ⟨a, b⟩ := e
  simp only at he ⊢
  have ha := mem_erasureNodes_left hI he
  have hb := mem_erasureNodes_right hI he
  obtain ⟨h1, e1, H1, _⟩ := H.heap.findRoot ha
  obtain ⟨h2, e2, H2, _⟩ := H1.findRoot hb
  have hmono : ∀ {u v}, Conn D u v → Conn (s(a, b) :: D) u v := fun h => h.mono fun _ h => List.mem_cons_of_mem _ h
  unfold fuse
  simp only [e1, e2, Option.bind_eq_bind, Option.bind_some]
  by_cases hab : rep a = rep b
  · have hu : union h2 (rep a) (rep b) = (h2, none) := by
      unfold UnionFind.union; rw [if_neg (by simpa using hab)]
    rw [hu]
    refine ⟨_, rep, dep, rfl, rfl, H2, H.status, fun u hu v hv => (H.conn u hu v hv).trans ⟨hmono, fun hc => ?_⟩, H.bnd,
      H.odd_nodup, H.odd_mem, H.odd⟩
    have hcab := (H.conn a ha b hb).1 hab
    rcases Conn.cons hc with h | ⟨h1, h2⟩ | ⟨h1, h2⟩
    · exact h
    · exact h1.trans (hcab.trans h2)
    · exact h1.trans (hcab.symm.trans h2)
  · obtain ⟨big, small, h3, e3, _, hcase, _, _, _, H3⟩ := H2.union (H.heap.rep_mem a ha) (H.heap.rep_mem b hb)
      (H.heap.rep_rep a ha) (H.heap.rep_rep b hb) hab
    have hcase' : big = rep a ∧ small = rep b ∨ big = rep b ∧ small = rep a := by tauto
    rw [e3]
    have hbig : ∃ x ∈ erasureNodes I, rep x = big := by
      rcases hcase' with ⟨rfl, _⟩ | ⟨rfl, _⟩
      · exact ⟨a, ha, rfl⟩
      · exact ⟨b, hb, rfl⟩
    have hsmall : ∃ x ∈ erasureNodes I, rep x = small := by
      rcases hcase' with ⟨_, rfl⟩ | ⟨_, rfl⟩
      · exact ⟨b, hb, rfl⟩
      · exact ⟨a, ha, rfl⟩
    have hbs : big ≠ small := by rcases hcase' with ⟨rfl, rfl⟩ | ⟨rfl, rfl⟩ <;> [exact hab; exact Ne.symm hab]
    obtain ⟨xb, hxb, rfl⟩ := hbig
    obtain ⟨xs, hxs, rfl⟩ := hsmall
    obtain ⟨bb, eb, hbb, nbb, mbb⟩ := H.bnd xb hxb
    obtain ⟨bs, es, hbs', nbs, mbs⟩ := H.bnd xs hxs
    obtain ⟨l', el, hl', nl'⟩ := prune_spec hI H.status io t (bb ++ bs.filter fun x => decide (x ∉ bb))
    simp only [eb, es, el, Option.bind_some]
    refine ⟨_, _, _, rfl, rfl, H3, H.status, fun u hu v hv => ?_, fun v hv => ?_, H.odd_nodup, H.odd_mem, fun v hv ho => ?_⟩
    · rw [joinRep_eq rep hab hcase']
      rw [H.conn u hu v hv, H.conn u hu a ha, H.conn v hv b hb, H.conn u hu b hb, H.conn v hv a ha]
      constructor
      · have hedge : Conn (s(a, b) :: D) a b := Conn.edge (by simp)
        rintro (h | ⟨h1, h2⟩ | ⟨h1, h2⟩)
        · exact hmono h
        · exact (hmono h1).trans (hedge.trans (hmono h2.symm))
        · exact (hmono h1).trans (hedge.symm.trans (hmono h2.symm))
      · intro hc
        rcases Conn.cons hc with h | ⟨h1, h2⟩ | ⟨h1, h2⟩
        · exact Or.inl h
        · exact Or.inr (Or.inl ⟨h1, h2.symm⟩)
        · exact Or.inr (Or.inr ⟨h1, h2.symm⟩)
    · simp only
      by_cases hvb : joinRep rep (rep xb) (rep xs) v = rep xb
      · refine ⟨l', by rw [hvb, Function.update_self], fun u hu huv ho => ?_, nl' ?_, fun u hu => ?_⟩
        · rw [hvb] at huv
          rw [hl']
          refine ⟨?_, ho⟩
          unfold joinRep at huv
          split_ifs at huv with hc
          · have hus := hbs' u hu hc ho
            by_cases hub : u ∈ bb
            · exact List.mem_append_left _ hub
            · exact List.mem_append_right _ (List.mem_filter.2 ⟨hus, by simpa using hub⟩)
          · exact List.mem_append_left _ (hbb u hu huv ho)
        · rw [List.nodup_append]
          refine ⟨nbb, nbs.filter _, fun x hx y hy => ?_⟩
          rintro rfl
          simpa [hx] using (List.mem_filter.1 hy).2
        · rw [hvb]
          unfold joinRep
          rcases List.mem_append.1 ((hl' u).1 hu).1 with h | h
          · refine ⟨(mbb u h).1, ?_⟩
            rw [(mbb u h).2, if_neg hbs]
          · have := mbs u (List.mem_filter.1 h).1
            exact ⟨this.1, by rw [if_pos this.2]⟩
      · obtain ⟨l, e, hl, nl, ml⟩ := H.bnd v hv
        have hvr : joinRep rep (rep xb) (rep xs) v = rep v := by
          unfold joinRep at hvb ⊢
          split_ifs at hvb ⊢ with hc
          · exact absurd rfl hvb
          · rfl
        refine ⟨l, by rw [hvr, Function.update_of_ne (by rw [← hvr]; exact hvb), e], fun u hu huv ho => hl u hu ?_ ho, nl,
          fun u hu => ⟨(ml u hu).1, ?_⟩⟩
        · rw [hvr] at huv
          unfold joinRep at huv
          split_ifs at huv with hc
          · rw [hvr] at hvb; exact absurd huv.symm hvb
          · exact huv
        · rw [hvr]
          have h1 := (ml u hu).2
          unfold joinRep at hvr ⊢
          rw [h1]
          exact hvr
    · obtain ⟨x, hx, hxo, hxv⟩ := OddCls.join hab hcase' rfl rfl ho
      have hxn : x ∈ erasureNodes I := by rcases hx with rfl | rfl | rfl <;> assumption
      obtain ⟨c, hc, hcx⟩ := H.odd x hxn hxo
      refine ⟨c, hc, ?_⟩
      rw [← hxv]
      unfold joinRep
      rw [hcx]

theorem fuseAll_spec {I : Input} (hI : Wf I) (io : IterOrder SNode) (t : ℕ) (fl : List (SNode × SNode)) {s : St}
    {D : List (Sym2 SNode)} {odd : List SNode} {rep : SNode → SNode} {dep : SNode → ℕ} (H : CInv I s D odd rep dep)
    (hfl : ∀ e ∈ fl, s(e.1, e.2) ∈ realE I.E) :
    ∃ s' rep' dep' D', fl.foldlM (fuse io t I) s = some s' ∧ s'.status = s.status ∧ CInv I s' D' odd rep' dep' ∧
      ∀ k, k ∈ D' ↔ k ∈ D ∨ ∃ e ∈ fl, s(e.1, e.2) = k := by
  induction fl generalizing s D rep dep with
  | nil => exact ⟨s, rep, dep, D, rfl, rfl, H, by simp⟩
  | cons e fl ih =>
    obtain ⟨s1, rep1, dep1, e1, st1, H1⟩ := fuse_spec hI io t H e (hfl e (by simp))
    obtain ⟨s2, rep2, dep2, D2, e2, st2, H2, hD⟩ := ih H1 fun x hx => hfl x (by simp [hx])
    refine ⟨s2, rep2, dep2, D2, ?_, st2.trans st1, H2, fun k => ?_⟩
    · rw [List.foldlM_cons, e1]; exact e2
    · rw [hD, List.mem_cons]
      constructor
      · rintro ((rfl | h) | ⟨x, hx, rfl⟩)
        · exact Or.inr ⟨e, by simp, rfl⟩
        · exact Or.inl h
        · exact Or.inr ⟨x, by simp [hx], rfl⟩
      · rintro (h | ⟨x, hx, rfl⟩)
        · exact Or.inl (Or.inr h)
        · rcases List.mem_cons.1 hx with rfl | hx
          · exact Or.inl (Or.inl rfl)
          · exact Or.inr ⟨x, hx, rfl⟩

theorem newRoots_spec {ns : List SNode} {p : SNode → Option Bool} {h : Heap SNode} {rep : SNode → SNode} {dep : SNode → ℕ}
    (H : HInv ns p h rep dep) (odd : List SNode) (hodd : ∀ c ∈ odd, c ∈ ns) :
    ∃ h' roots, newRoots h odd = some (h', roots) ∧ HInv ns p h' rep dep ∧ roots.Nodup ∧
      ∀ r, r ∈ roots ↔ ∃ c ∈ odd, rep c = r := by
  have key : ∀ (l : List SNode) (h : Heap SNode) (acc : List SNode), (∀ c ∈ l, c ∈ ns) → HInv ns p h rep dep → acc.Nodup →
      ∃ h' roots, l.foldlM (fun (p : Heap SNode × List SNode) c => do
        let (h, r) ← findRoot p.1 c
        let r ← r
        pure (h, if r ∈ p.2 then p.2 else p.2 ++ [r])) (h, acc) = some (h', roots) ∧ HInv ns p h' rep dep ∧ roots.Nodup ∧
        ∀ r, r ∈ roots ↔ r ∈ acc ∨ ∃ c ∈ l, rep c = r := by
    intro l
    induction l with
    | nil => intro h acc _ H hn; exact ⟨h, acc, rfl, H, hn, by simp⟩
    | cons c l ih =>
      intro h acc hl H hn
      obtain ⟨h1, e1, H1, _⟩ := H.findRoot (hl c (by simp))
      obtain ⟨h2, roots, e2, H2, hnd, hr⟩ := ih h1 (if rep c ∈ acc then acc else acc ++ [rep c]) (fun x hx => hl x (by simp [hx])) H1
        (by
          split_ifs with hc
          · exact hn
          · rw [List.nodup_append]
            refine ⟨hn, by simp, fun x hx y hy => ?_⟩
            rw [List.mem_singleton] at hy
            rintro rfl
            exact hc (hy ▸ hx))
      refine ⟨h2, roots, ?_, H2, hnd, fun r => ?_⟩
      · rw [List.foldlM_cons]
        simp only [e1, Option.bind_eq_bind, Option.bind_some, Option.pure_def] at e2 ⊢
        exact e2
      · rw [hr]
        have hm : r ∈ (if rep c ∈ acc then acc else acc ++ [rep c]) ↔ r ∈ acc ∨ rep c = r := by
          split_ifs with hc
          · exact ⟨Or.inl, fun h => h.elim id fun h => h ▸ hc⟩
          · simp [eq_comm]
        rw [hm]
        simp only [List.mem_cons, exists_eq_or_imp]
        tauto
  obtain ⟨h', roots, e, H', hn, hr⟩ := key odd h [] hodd H List.nodup_nil
  exact ⟨h', roots, e, H', hn, by simpa using hr⟩

theorem CInv.congr {I : Input} {s : St} {D D' : List (Sym2 SNode)} {odd : List SNode} {rep : SNode → SNode} {dep : SNode → ℕ}
    (H : CInv I s D odd rep dep) (h : ∀ k, k ∈ D ↔ k ∈ D') : CInv I s D' odd rep dep :=
  ⟨H.heap, H.status, fun u hu v hv => (H.conn u hu v hv).trans
    ⟨fun hc => hc.mono fun k hk => (h k).1 hk, fun hc => hc.mono fun k hk => (h k).2 hk⟩, H.bnd, H.odd_nodup, H.odd_mem, H.odd⟩

/-- How often the nodes of the boundary lists grow an edge. -/
theorem count_grow {I : Input} (hI : Wf I) (io : IterOrder SNode) (t : ℕ) {B : List SNode} (hB : B.Nodup) {u w : SNode}
    (he : s(u, w) ∈ realE I.E) :
    (B.flatMap fun n => outEdges io t I n).countP (fun e => decide (s(e.1, e.2) = s(u, w))) =
      (if u ∈ B then 1 else 0) + if w ∈ B then 1 else 0 := by
  have hne : u ≠ w := fun h => hI.noloop _ he (by simpa using h)
  have hcount : ∀ n, (outEdges io t I n).countP (fun e => decide (s(e.1, e.2) = s(u, w))) =
      (if n = u then 1 else 0) + if n = w then 1 else 0 := by
    intro n
    have hnd : (outEdges io t I n).Nodup := by
      unfold outEdges
      refine List.Nodup.filter _ (List.Nodup.map (fun a b h => (Prod.mk.inj h).2) ?_)
      exact (io.perm t _).nodup_iff.2 (hI.nodup.filter _)
    by_cases h1 : n = u
    · subst h1
      rw [if_pos rfl, if_neg hne]
      have : (outEdges io t I n).countP (fun e => decide (s(e.1, e.2) = s(n, w))) = (outEdges io t I n).count (n, w) := by
        rw [List.count]
        refine List.countP_congr fun e hm => ?_
        obtain ⟨a, b⟩ := e
        obtain ⟨rfl, _⟩ := (mem_outEdges hI).1 hm
        simp only [decide_eq_true_eq, beq_iff_eq, Sym2.eq_iff, Prod.mk.injEq]
        constructor
        · rintro (h | ⟨h1, h2⟩)
          · exact h
          · exact absurd h1 hne
        · exact Or.inl
      rw [this, List.count_eq_one_of_mem hnd ((mem_outEdges hI).2 ⟨rfl, he⟩)]
    · by_cases h2 : n = w
      · subst h2
        rw [if_neg h1, if_pos rfl]
        have he' : s(n, u) ∈ realE I.E := by rwa [Sym2.eq_swap]
        have : (outEdges io t I n).countP (fun e => decide (s(e.1, e.2) = s(u, n))) = (outEdges io t I n).count (n, u) := by
          rw [List.count]
          refine List.countP_congr fun e hm => ?_
          obtain ⟨a, b⟩ := e
          obtain ⟨rfl, _⟩ := (mem_outEdges hI).1 hm
          simp only [decide_eq_true_eq, beq_iff_eq, Sym2.eq_iff, Prod.mk.injEq]
          constructor
          · rintro (⟨h, _⟩ | ⟨_, h2⟩)
            · exact absurd h h1
            · exact ⟨trivial, h2⟩
          · rintro ⟨_, h⟩
            exact Or.inr ⟨trivial, h⟩
        rw [this, List.count_eq_one_of_mem hnd ((mem_outEdges hI).2 ⟨rfl, he'⟩)]
      · rw [if_neg h1, if_neg h2, List.countP_eq_zero]
        rintro ⟨a, b⟩ hm hc
        obtain ⟨rfl, _⟩ := (mem_outEdges hI).1 hm
        rw [decide_eq_true_eq, Sym2.eq_iff] at hc
        rcases hc with ⟨h, _⟩ | ⟨h, _⟩
        · exact h1 h
        · exact h2 h
  have hcnt : ∀ x, B.countP (fun n => decide (n = x)) = if x ∈ B then 1 else 0 := by
    intro x
    have : B.countP (fun n => decide (n = x)) = B.count x := by
      rw [List.count]; refine List.countP_congr fun n _ => by simp
    rw [this]
    split_ifs with h
    · exact List.count_eq_one_of_mem hB h
    · exact List.count_eq_zero_of_not_mem h
  rw [← hcnt u, ← hcnt w]
  clear hcnt hB
  induction B with
  | nil => rfl
  | cons n B ih =>
    rw [List.flatMap_cons, List.countP_append, ih, hcount, List.countP_cons, List.countP_cons]
    simp only [decide_eq_true_eq]
    omega

/-- One round keeps the invariant; every edge grows by half for each end in a cluster that is grown. -/
theorem round_exact {I : Input} (hI : Wf I) (io : IterOrder SNode) (t : ℕ) {s : St} {odd : List SNode} {rep : SNode → SNode}
    {dep : SNode → ℕ} (H : CInv I s (grownL s.status) odd rep dep) (hodd : ∀ c ∈ odd, rep c = c) :
    ∃ s' odd' rep' dep', round io t I s odd = some (s', odd') ∧ CInv I s' (grownL s'.status) odd' rep' dep' ∧
      ((∀ u w, s(u, w) ∈ realE I.E → lvl s'.status s(u, w) = min 2 (lvl s.status s(u, w) +
        ((if rep u ∈ odd then 1 else 0) + if rep w ∈ odd then 1 else 0))) ∧
        ∀ r ∈ odd', ∃ c ∈ odd, rep' c = r) ∧
      (∀ c ∈ odd', rep' c = c ∧ OddCls (erasureNodes I) (rootParity I) rep' c) ∧
      (∀ k, lvl s.status k ≤ lvl s'.status k) ∧
      ∀ c ∈ odd, ∀ u ∈ erasureNodes I, rep u = c → ∀ w, s(u, w) ∈ realE I.E → lvl s.status s(u, w) < 2 →
        lvl s.status s(u, w) < lvl s'.status s(u, w) := by
  -- the boundaries of the odd clusters
  have hb : ∀ c ∈ odd, ∃ l, s.bnd c = some l ∧ (∀ u ∈ erasureNodes I, rep u = c → Open I s.status u → u ∈ l) ∧
      l.Nodup ∧ ∀ u ∈ l, u ∈ erasureNodes I ∧ rep u = c := by
    intro c hc
    have := H.bnd c (H.odd_mem c hc)
    rwa [hodd c hc] at this
  have hm : (io.ord t odd).mapM (fun c => s.bnd c) = some ((io.ord t odd).map fun c => (s.bnd c).getD []) := by
    apply mapM_some'
    intro c hc
    rw [(io.perm t odd).mem_iff] at hc
    obtain ⟨l, e, _⟩ := hb c hc
    rw [e]; rfl
  obtain ⟨L, hLdef⟩ : ∃ L, L = ((((io.ord t odd).map fun c => (s.bnd c).getD []).flatMap fun l => io.ord t l).flatMap
    fun n => outEdges io t I n) := ⟨_, rfl⟩
  have hL : ∀ e ∈ L, s(e.1, e.2) ∈ realE I.E := by
    rintro ⟨a, b⟩ he
    rw [hLdef, List.mem_flatMap] at he
    obtain ⟨n, _, hn⟩ := he
    obtain ⟨rfl, h⟩ := (mem_outEdges hI).1 hn
    exact h
  obtain ⟨st', fl, e1, S', m1, g1, f1, n1, x1⟩ := growFold_spec L hL s.status H.status []
  have hgrow : growAll io t I s odd = some (st', fl) := by
    unfold growAll
    rw [hm]
    simp only [Option.bind_eq_bind, Option.bind_some, ← hLdef]
    rw [List.nil_append] at e1
    exact e1
  have hopen : ∀ u, Open I st' u → Open I s.status u := fun u ⟨w, h1, h2⟩ => ⟨w, h1, lt_of_le_of_lt (m1 _) h2⟩
  have H1 : CInv I ⟨s.heap, st', s.bnd⟩ (grownL s.status) odd rep dep :=
    ⟨H.heap, S', H.conn, fun v hv => by
      obtain ⟨l, e, hl, nl, ml⟩ := H.bnd v hv
      exact ⟨l, e, fun u hu huv ho => hl u hu huv (hopen u ho), nl, ml⟩, H.odd_nodup, H.odd_mem, H.odd⟩
  obtain ⟨s2, rep2, dep2, D2, e2, st2, H2, hD⟩ := fuseAll_spec hI io t fl H1 fun e he => hL e (f1 e he).1
  simp only at st2
  have H2' : CInv I s2 (grownL s2.status) odd rep2 dep2 := by
    refine H2.congr fun k => ?_
    rw [hD, st2, mem_grownL, mem_grownL]
    constructor
    · rintro (h | ⟨e, he, rfl⟩)
      · have := m1 k
        have := lvl_le st' k
        omega
      · exact (f1 e he).2
    · intro h
      by_cases hc : lvl s.status k = 2
      · exact Or.inl hc
      · have := lvl_le s.status k
        exact Or.inr (n1 k (by omega) h)
  have hord : ∀ c, c ∈ io.ord t odd ↔ c ∈ odd := fun c => (io.perm t odd).mem_iff
  obtain ⟨h3, roots, e3, H3, hrnd, hr⟩ := newRoots_spec H2'.heap (io.ord t odd) fun c hc => H2'.odd_mem c ((hord c).1 hc)
  obtain ⟨odd', hodd'⟩ : ∃ l, l = roots.filter fun r => h3.parity r && decide (h3.boundary r = none) := ⟨_, rfl⟩
  have hround : round io t I s odd = some (⟨h3, s2.status, s2.bnd⟩, odd') := by
    unfold round
    rw [hgrow]
    simp only [Option.bind_eq_bind, Option.bind_some, e2, e3, hodd']
    rfl
  have hmem : ∀ r, r ∈ odd' ↔ (∃ c ∈ odd, rep2 c = r) ∧ h3.parity r = true ∧ h3.boundary r = none := by
    intro r
    rw [hodd', List.mem_filter, hr]
    simp only [hord, Bool.and_eq_true, decide_eq_true_eq]
  refine ⟨_, odd', rep2, dep2, hround, ⟨H3, H2'.status, H2'.conn, H2'.bnd, by rw [hodd']; exact hrnd.filter _, ?_, ?_⟩,
    ⟨fun u w he => ?_, fun r hr' => ((hmem r).1 hr').1⟩, ?_, ?_, ?_⟩
  · intro r hr'
    obtain ⟨⟨c, hc, rfl⟩, _⟩ := (hmem r).1 hr'
    exact H3.rep_mem c (H2'.odd_mem c hc)
  · intro v hv ho
    obtain ⟨c, hc, hcv⟩ := H2'.odd v hv ho
    obtain ⟨h4, h5⟩ := (H3.oddCls hv).2 ho
    refine ⟨rep2 v, (hmem _).2 ⟨⟨c, hc, hcv⟩, h4, h5⟩, H3.rep_rep v hv⟩
  · simp only [st2]
    rw [x1]
    have hBnd : (((io.ord t odd).map fun c => (s.bnd c).getD []).flatMap fun l => io.ord t l).Nodup := by
      rw [List.nodup_flatMap]
      constructor
      · intro l hl
        obtain ⟨c, hc, rfl⟩ := List.mem_map.1 hl
        obtain ⟨l, e, _, nl, _⟩ := hb c ((hord c).1 hc)
        rw [e]
        exact (io.perm t _).nodup_iff.2 nl
      · rw [List.pairwise_map]
        refine ((io.perm t odd).nodup_iff.2 H.odd_nodup).imp_of_mem fun {c c'} hc hc' hne => ?_
        rw [Function.onFun, List.disjoint_left]
        intro x hx hx'
        obtain ⟨l, e, _, _, ml⟩ := hb c ((hord c).1 hc)
        obtain ⟨l', e', _, _, ml'⟩ := hb c' ((hord c').1 hc')
        rw [e, (io.perm t _).mem_iff] at hx
        rw [e', (io.perm t _).mem_iff] at hx'
        exact hne ((ml x hx).2.symm.trans (ml' x hx').2)
    rw [hLdef, count_grow hI io t hBnd he]
    by_cases hl : lvl s.status s(u, w) < 2
    · have key : ∀ x, x ∈ erasureNodes I → Open I s.status x →
          (x ∈ (((io.ord t odd).map fun c => (s.bnd c).getD []).flatMap fun l => io.ord t l) ↔ rep x ∈ odd) := by
        intro x hx ho
        rw [List.mem_flatMap]
        constructor
        · rintro ⟨l, hl, hxl⟩
          obtain ⟨c, hc, rfl⟩ := List.mem_map.1 hl
          obtain ⟨l, e, _, _, ml⟩ := hb c ((hord c).1 hc)
          rw [e, (io.perm t _).mem_iff] at hxl
          rw [(ml x hxl).2]
          exact (hord c).1 hc
        · intro hc
          obtain ⟨l, e, hl', _⟩ := hb _ hc
          refine ⟨l, List.mem_map.2 ⟨_, (hord _).2 hc, by rw [e]; rfl⟩, ?_⟩
          rw [(io.perm t l).mem_iff]
          exact hl' x hx rfl ho
      rw [if_congr (key u (mem_erasureNodes_left hI he) ⟨w, he, hl⟩) rfl rfl,
        if_congr (key w (mem_erasureNodes_right hI he) ⟨u, by rwa [Sym2.eq_swap], by rwa [Sym2.eq_swap]⟩) rfl rfl]
    · omega
  · intro r hr'
    obtain ⟨⟨c, hc, rfl⟩, h4, h5⟩ := (hmem r).1 hr'
    have hcn := H2'.odd_mem c hc
    refine ⟨H3.rep_rep c hcn, ?_⟩
    have := (H3.oddCls hcn).1 ⟨h4, h5⟩
    unfold OddCls at this ⊢
    rwa [H3.rep_rep c hcn]
  · simp only [st2]; exact m1
  · intro c hc u hu huc w hw hl
    simp only [st2]
    refine g1 (u, w) ?_ hl
    rw [hLdef, List.mem_flatMap]
    refine ⟨u, List.mem_flatMap.2 ?_, (mem_outEdges hI).2 ⟨rfl, hw⟩⟩
    obtain ⟨l, e, hl', _⟩ := hb c hc
    refine ⟨l, List.mem_map.2 ⟨c, (hord c).2 hc, by rw [e]; rfl⟩, ?_⟩
    rw [(io.perm t l).mem_iff]
    exact hl' u hu huc ⟨w, hw, hl⟩

/-- One round keeps the invariant, and grows every edge at the clusters that are grown. -/
theorem round_spec {I : Input} (hI : Wf I) (io : IterOrder SNode) (t : ℕ) {s : St} {odd : List SNode} {rep : SNode → SNode}
    {dep : SNode → ℕ} (H : CInv I s (grownL s.status) odd rep dep) (hodd : ∀ c ∈ odd, rep c = c) :
    ∃ s' odd' rep' dep', round io t I s odd = some (s', odd') ∧ CInv I s' (grownL s'.status) odd' rep' dep' ∧
      (∀ c ∈ odd', rep' c = c ∧ OddCls (erasureNodes I) (rootParity I) rep' c) ∧
      (∀ k, lvl s.status k ≤ lvl s'.status k) ∧
      ∀ c ∈ odd, ∀ u ∈ erasureNodes I, rep u = c → ∀ w, s(u, w) ∈ realE I.E → lvl s.status s(u, w) < 2 →
        lvl s.status s(u, w) < lvl s'.status s(u, w) := by
  obtain ⟨s', odd', rep', dep', h1, h2, _, h3⟩ := round_exact hI io t H hodd
  exact ⟨s', odd', rep', dep', h1, h2, h3⟩

end Flamingpy.UnionFind
