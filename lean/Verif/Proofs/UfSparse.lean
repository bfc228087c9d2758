import Verif.Proofs.SparseGrow
import Verif.Proofs.UfPlane

/-!
# The growth of Union-Find clusters as a process

For C85: the rounds of the decoder are a growth process in the sense of `Sparse.Growth`.
-/

namespace Flamingpy.UnionFind

open Flamingpy.SurfaceCode Flamingpy.Sparse

/-- Boundary points. -/
abbrev bdP (I : Input) (v : SNode) : Prop := rootParity I v = none

theorem cc_iff {I : Input} {st : List (Sym2 SNode × Status)} (hs : SInv I st) {u v : SNode} : Cc (esF I) (lvl st) u v ↔ Conn (grownL st) u v := by
  constructor
  · refine Relation.ReflTransGen.mono (fun x y h => ?_) _ _
    exact mem_grownL.2 h.2
  · refine Relation.ReflTransGen.mono (fun x y h => ?_) _ _
    exact ⟨by simpa using grownL_sub hs h, mem_grownL.1 h⟩

theorem oddCls_iff {I : Input} (hI : Wf I) {Er : Finset (Sym2 SNode)} (hE : Explains I Er) {s : St} {odd : List SNode}
    {rep : SNode → SNode} {dep : SNode → ℕ} (H : CInv I s (grownL s.status) odd rep dep) {u : SNode} (hu : u ∈ erasureNodes I) :
    OddCls (erasureNodes I) (rootParity I) rep u ↔
      Odd (tot (nsF I) (esF I) (lvl s.status) Er u) ∧ ∀ v, Cc (esF I) (lvl s.status) u v → ¬ bdP I v := by
  classical
  have hc : ∀ v ∈ erasureNodes I, (rep v = rep u ↔ Cc (esF I) (lvl s.status) u v) := fun v hv => by
    rw [cc_iff H.status, ← H.conn u hu v hv, eq_comm]
  have h2 : (∀ v ∈ erasureNodes I, rep v = rep u → rootParity I v ≠ none) ↔ ∀ v, Cc (esF I) (lvl s.status) u v → ¬ bdP I v := by
    constructor
    · intro h v hv
      have hvn := conn_mem hI (fun k hk => grownL_sub H.status hk) hu ((cc_iff H.status).1 hv)
      exact h v hvn ((hc v hvn).2 hv)
    · exact fun h v hv hr => h v ((hc v hv).1 hr)
  unfold OddCls
  rw [h2]
  refine and_congr_left fun hb => ?_
  rw [countP_card (erasureNodes_nodup hI), ← Nat.odd_iff, tot, Finset.odd_sum_iff_odd_card_odd, Finset.filter_filter]
  have : ((erasureNodes I).toFinset.filter fun v => decide (rep v = rep u ∧ rootParity I v = some true) = true) =
      ((nsF I).filter fun v => Cc (esF I) (lvl s.status) u v ∧ Odd (dg Er v)) := by
    refine Finset.filter_congr fun v hv => ?_
    rw [List.mem_toFinset] at hv
    rw [decide_eq_true_eq, hc v hv]
    refine and_congr_right fun hr => ?_
    have hn := hb v hr
    have hnc := (erasureNodes_sub hI hv).2
    cases v with
    | low => simp [isConn] at hnc
    | high => simp [isConn] at hnc
    | pt p => exact absurd ((rootParity_none hnc).2 ⟨p, rfl⟩) hn
    | stab k =>
      unfold dg
      rw [← hE.odd k hv, rootParity_odd]
      constructor
      · rintro ⟨k', h, h'⟩
        cases h
        exact h'
      · exact fun h => ⟨k, rfl, h⟩
  rw [this]

open Classical in
/-- A growth process without its start. -/
structure Later (I : Input) (Er : Finset (Sym2 SNode)) (lv : ℕ → Sym2 SNode → ℕ) (G : ℕ → SNode → Prop) : Prop where
  le : ∀ t e, lv t e ≤ 2
  step : ∀ t u v, s(u, v) ∈ esF I → lv (t + 1) s(u, v) = min 2 (lv t s(u, v) + ((if G t u then 1 else 0) + if G t v then 1 else 0))
  active : ∀ t u, u ∈ nsF I → (∀ v, Cc (esF I) (lv t) u v → ¬ bdP I v) → Odd (tot (nsF I) (esF I) (lv t) Er u) → ∀ v, Cc (esF I) (lv t) u v → G t v

theorem state_active {I : Input} (hI : Wf I) {Er : Finset (Sym2 SNode)} (hE : Explains I Er) {s : St} {odd : List SNode}
    {rep : SNode → SNode} {dep : SNode → ℕ} (H : CInv I s (grownL s.status) odd rep dep) (hr : ∀ c ∈ odd, rep c = c) {u : SNode} (hu : u ∈ nsF I)
    (hb : ∀ v, Cc (esF I) (lvl s.status) u v → ¬ bdP I v) (ho : Odd (tot (nsF I) (esF I) (lvl s.status) Er u)) {v : SNode}
    (hv : Cc (esF I) (lvl s.status) u v) : v ∈ erasureNodes I ∧ rep v ∈ odd := by
  rw [List.mem_toFinset] at hu
  obtain ⟨c, hc, hcu⟩ := H.odd u hu ((oddCls_iff hI hE H hu).2 ⟨ho, hb⟩)
  have hv' := (cc_iff H.status).1 hv
  have hvn := conn_mem hI (fun k hk => grownL_sub H.status hk) hu hv'
  refine ⟨hvn, ?_⟩
  rw [← (H.conn u hu v hvn).2 hv', ← hcu, hr c hc]
  exact hc

/-- One more state in front. -/
theorem Later.cons {I : Input} {Er : Finset (Sym2 SNode)} {lv : ℕ → Sym2 SNode → ℕ} {G : ℕ → SNode → Prop} (L : Later I Er lv G) (hI : Wf I)
    (hE : Explains I Er) {s s1 : St} {odd : List SNode}
    {rep : SNode → SNode} {dep : SNode → ℕ} (H : CInv I s (grownL s.status) odd rep dep) (hr : ∀ c ∈ odd, rep c = c)
    (g1 : ∀ u w, s(u, w) ∈ realE I.E → lvl s1.status s(u, w) = min 2 (lvl s.status s(u, w) +
        ((if rep u ∈ odd then 1 else 0) + if rep w ∈ odd then 1 else 0))) (h0 : lv 0 = lvl s1.status) :
    Later I Er (fun t => Nat.casesOn t (lvl s.status) lv) (fun t => Nat.casesOn t (fun u => u ∈ erasureNodes I ∧ rep u ∈ odd) G) := by
  classical
  refine ⟨?_, ?_, ?_⟩
  · intro t e
    cases t with
    | zero => exact lvl_le _ _
    | succ t => exact L.le t e
  · intro t u v he
    cases t with
    | zero =>
      have he' : s(u, v) ∈ realE I.E := by simpa using he
      simp only [Nat.rec_add_one, Nat.rec_zero, mem_erasureNodes_left hI he', mem_erasureNodes_right hI he', true_and]
      rw [h0, g1 u v he']
    | succ t => exact L.step t u v he
  · intro t u hu hb ho v hv
    cases t with
    | zero => exact state_active hI hE H hr hu hb ho hv
    | succ t => exact L.active t u hu hb ho v hv

theorem later_nil {I : Input} (hI : Wf I) {Er : Finset (Sym2 SNode)} (hE : Explains I Er) {s : St} {rep : SNode → SNode} {dep : SNode → ℕ}
    (H : CInv I s (grownL s.status) [] rep dep) : Later I Er (fun _ => lvl s.status) fun _ _ => False := by
  refine ⟨fun _ _ => lvl_le _ _, fun t u v he => ?_, fun t u hu hb ho v hv => ?_⟩
  · have := lvl_le s.status s(u, v)
    simp only [if_false]
    omega
  · have := (state_active hI hE H (by simp) hu hb ho hv).2
    simp at this

/-- The process after the first round. -/
theorem later_all {I : Input} (hI : Wf I) {Er : Finset (Sym2 SNode)} (hE : Explains I Er) (io : IterOrder SNode) (fuel : ℕ) :
    ∀ (t : ℕ) (s s' : St) (odd : List SNode) (rep : SNode → SNode) (dep : SNode → ℕ),
    CInv I s (grownL s.status) odd rep dep → (∀ c ∈ odd, rep c = c ∧ OddCls (erasureNodes I) (rootParity I) rep c) →
    unionFind io I fuel t s odd = some s' → ∃ lv G T, Later I Er lv G ∧ lv 0 = lvl s.status ∧
      (∀ t u, G t u → Odd (tot (nsF I) (esF I) (lv t) Er u) ∧ ∀ v, Cc (esF I) (lv t) u v → ¬ bdP I v) ∧ ∀ t, T ≤ t → lv t = lvl s'.status := by
  induction fuel with
  | zero =>
    intro t s s' odd rep dep H ho h
    cases odd with
    | nil =>
      cases h
      exact ⟨_, _, 0, later_nil hI hE H, rfl, fun _ _ h => h.elim, fun _ _ => rfl⟩
    | cons c odd => simp [unionFind] at h
  | succ fuel ih =>
    intro t s s' odd rep dep H ho h
    cases odd with
    | nil =>
      cases h
      exact ⟨_, _, 0, later_nil hI hE H, rfl, fun _ _ h => h.elim, fun _ _ => rfl⟩
    | cons c odd =>
      obtain ⟨s1, odd1, rep1, dep1, e, H1, ⟨g1, g2⟩, ho1, m, _⟩ := round_exact hI io t H fun c hc => (ho c hc).1
      rw [unionFind, e] at h
      obtain ⟨lv, G, T, L, h0, hG, hT⟩ := ih (t + 1) s1 s' odd1 rep1 dep1 H1 ho1 h
      refine ⟨_, _, T + 1, L.cons hI hE H (fun c hc => (ho c hc).1) g1 h0, rfl, ?_, ?_⟩
      · intro t u hu
        cases t with
        | zero =>
          obtain ⟨hun, hu⟩ := hu
          refine (oddCls_iff hI hE H hun).1 ?_
          have := (ho _ hu).2
          unfold OddCls at this ⊢
          rwa [H.heap.rep_rep u hun] at this
        | succ t => exact hG t u hu
      · intro t ht
        cases t with
        | zero => omega
        | succ t => exact hT t (by omega)

/-- The growth of the decoder's clusters is a growth process. -/
theorem unionFind_growth (cl : CompLib SNode) (io : IterOrder SNode) {I : Input} (hI : Wf I) {Er : Finset (Sym2 SNode)} (hE : Explains I Er)
    {fuel : ℕ} {s s' : St} {odd : List SNode} (hs : initState cl io I = some (s, odd)) (hu : unionFind io I fuel 0 s odd = some s') :
    ∃ lv G T, Growth (nsF I) (esF I) (bdP I) Er (Er ∪ (erasureEdges I).toFinset) lv G ∧ ∀ t, T ≤ t → lv t = lvl s'.status := by
  classical
  obtain ⟨s0, odd0, rep, dep, e, hst, H, ho, hp, -⟩ := initState_exact cl io hI
  rw [hs] at e
  cases e
  have her : ∀ k, k ∈ grownL s.status ↔ k ∈ erasureEdges I := fun k => by rw [hst, supportInit_grown hI]
  have fin : ∀ {lv : ℕ → Sym2 SNode → ℕ} {G : ℕ → SNode → Prop} {T : ℕ}, Later I Er lv G → lv 0 = lvl s.status →
      (∀ t u, G (t + 1) u → Odd (tot (nsF I) (esF I) (lv (t + 1)) Er u) ∧ ∀ v, Cc (esF I) (lv (t + 1)) u v → ¬ bdP I v) →
      (∀ u, G 0 u → u ∈ erasureNodes I ∧ rep u ∈ odd) → (∀ t, T ≤ t → lv t = lvl s'.status) →
      ∃ lv G T, Growth (nsF I) (esF I) (bdP I) Er (Er ∪ (erasureEdges I).toFinset) lv G ∧ ∀ t, T ≤ t → lv t = lvl s'.status := by
    intro lv G T L h0 hG hG0 hT
    refine ⟨lv, G, T, ⟨?_, Finset.subset_union_left, ?_, ?_, L.le, L.step, L.active, hG, ?_⟩, hT⟩
    · intro u v he
      have he' : s(u, v) ∈ realE I.E := by simpa using he
      exact ⟨by simpa using mem_erasureNodes_left hI he', fun h => hI.noloop _ he' (by simpa using h)⟩
    · refine Finset.union_subset hE.sub fun k hk => ?_
      rw [List.mem_toFinset] at hk ⊢
      exact List.mem_of_mem_filter hk
    · intro k _ hk
      rw [h0] at hk
      exact Finset.mem_union_right _ (by rw [List.mem_toFinset]; exact (her k).1 (mem_grownL.2 hk))
    · intro u hu
      obtain ⟨hun, hu⟩ := hG0 u hu
      have hpar := hp _ hu
      rw [H.heap.parity u hun, decide_eq_true_eq] at hpar
      by_cases hb : ∀ v ∈ erasureNodes I, rep v = rep u → rootParity I v ≠ none
      · have := ((oddCls_iff hI hE H hun).1 ⟨hpar, hb⟩).1
        obtain ⟨v, _, hv, f, hf, hvf⟩ := tot_odd this
        rw [h0]
        exact ⟨v, hv, f, Finset.mem_union_left _ hf, hvf⟩
      · push Not at hb
        obtain ⟨v, hv, hvu, hvn⟩ := hb
        have : 0 < (erasureNodes I).countP fun w => decide (rep w = rep u ∧ rootParity I w = some true) := by omega
        obtain ⟨w, hw, hwu⟩ := List.countP_pos_iff.1 this
        rw [decide_eq_true_eq] at hwu
        have hc : Conn (grownL s.status) v w := (H.conn _ hv w hw).1 (hvu.trans hwu.1.symm)
        obtain ⟨q, hq⟩ := conn_first hc (fun h => by rw [← h, hvn] at hwu; simp at hwu)
        rw [h0]
        refine ⟨v, (cc_iff H.status).2 ((H.conn _ hun _ hv).1 hvu.symm), s(v, q), Finset.mem_union_right _ ?_, Sym2.mem_mk_left _ _⟩
        rw [List.mem_toFinset]
        exact (her _).1 hq
  cases odd with
  | nil =>
    rw [unionFind_nil] at hu
    cases hu
    exact fin (T := 0) (later_nil hI hE H) rfl (fun _ _ h => h.elim) (fun _ h => h.elim) fun _ _ => rfl
  | cons c odd =>
    cases fuel with
    | zero => simp [unionFind] at hu
    | succ fuel =>
      obtain ⟨s1, odd1, rep1, dep1, e, H1, ⟨g1, g2⟩, ho1, m, _⟩ := round_exact hI io 0 H ho
      rw [unionFind, e] at hu
      obtain ⟨lv, G, T, L, h0, hG, hT⟩ := later_all hI hE io fuel 1 s1 s' odd1 rep1 dep1 H1 ho1 hu
      refine fin (T := T + 1) (L.cons hI hE H ho g1 h0) rfl (fun t u h => hG t u h) (fun u h => h) ?_
      intro t ht
      cases t with
      | zero => omega
      | succ t => exact hT t (by omega)

/-- If only islands are bad, then what is connected by bad and grown edges is not far apart. -/
theorem unionFind_local (cl : CompLib SNode) (io : IterOrder SNode) {I : Input} (hI : Wf I) {Er : Finset (Sym2 SNode)} (hE : Explains I Er)
    {fuel : ℕ} {s s' : St} {odd : List SNode} (hs : initState cl io I = some (s, odd)) (hu : unionFind io I fuel 0 s odd = some s')
    {a b tau rho delta e : ℕ → ℕ} (sc : Scales a b tau rho delta e) {k : ℕ} (hk : El (esF I) (Er ∪ (erasureEdges I).toFinset) a b k = ∅) {u v : SNode}
    (h : Relation.ReflTransGen (fun x y => s(x, y) ∈ Er ∪ (erasureEdges I).toFinset ∨ s(x, y) ∈ esF I ∧ lvl s'.status s(x, y) = 2) u v) :
    Near (esF I) (e k) u v := by
  obtain ⟨lv, G, T, g, hT⟩ := unionFind_growth cl io hI hE hs hu
  refine g.local sc hk (t := max T (tau k)) (le_max_right _ _) ?_
  rw [hT _ (le_max_left _ _)]
  exact h

end Flamingpy.UnionFind
