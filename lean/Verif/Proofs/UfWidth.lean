import Verif.Proofs.UfGhost
import Verif.Proofs.UfTerm
import Mathlib.Algebra.BigOperators.Ring.Nat
import Mathlib.Algebra.Order.Ring.Int

/-!
# How wide the clusters of the union-find decoder become
-/

namespace Flamingpy.UnionFind

open Flamingpy SurfaceCode

theorem countP_card {N : Type} [DecidableEq N] {l : List N} (h : l.Nodup) (p : N → Bool) :
    l.countP p = (l.toFinset.filter fun v => p v = true).card := by
  rw [List.countP_eq_length_filter, ← List.toFinset_filter, List.toFinset_card_of_nodup (h.filter _)]

/-- If the nodes of `C` with an odd number of edges of `Er` are odd in number, then an edge of `Er` leaves `C`. -/
theorem leaving {N : Type} [DecidableEq N] (C : Finset N) (Er : Finset (Sym2 N)) (hloop : ∀ e ∈ Er, ¬ e.IsDiag)
    (ho : Odd (C.filter fun v => Odd (Er.filter (v ∈ ·)).card).card) : ∃ p q, s(p, q) ∈ Er ∧ p ∈ C ∧ q ∉ C := by
  by_contra hc
  push Not at hc
  rw [← Finset.odd_sum_iff_odd_card_odd] at ho
  refine (Nat.not_odd_iff_even.2 ?_) ho
  have : ∑ v ∈ C, (Er.filter (v ∈ ·)).card = ∑ e ∈ Er, (C.filter (· ∈ e)).card := by
    simp only [Finset.card_filter]
    exact Finset.sum_comm
  rw [this]
  refine Finset.even_sum _ fun e he => ?_
  induction e with
  | _ u v =>
  have huv : u ≠ v := fun h => hloop _ he (by simpa using h)
  by_cases hu : u ∈ C
  · have hv := hc u v he hu
    have : C.filter (· ∈ s(u, v)) = {u, v} := by
      ext z
      simp only [Finset.mem_filter, Sym2.mem_iff, Finset.mem_insert, Finset.mem_singleton]
      constructor
      · exact fun h => h.2
      · rintro (rfl | rfl)
        · exact ⟨hu, Or.inl rfl⟩
        · exact ⟨hv, Or.inr rfl⟩
    rw [this, Finset.card_pair huv]
    decide
  · have hv : v ∉ C := fun hv => hu (hc v u (by rwa [Sym2.eq_swap]) hv)
    have : C.filter (· ∈ s(u, v)) = ∅ := by
      refine Finset.filter_eq_empty_iff.2 fun z hz => ?_
      rw [Sym2.mem_iff]
      rintro (rfl | rfl)
      · exact hu hz
      · exact hv hz
    rw [this]
    simp

/-- The nodes with a real edge. -/
abbrev nsF (I : Input) : Finset SNode := (erasureNodes I).toFinset
/-- The real edges. -/
abbrev esF (I : Input) : Finset (Sym2 SNode) := (realE I.E).toFinset

/-- The syndrome is that of a set of edges. -/
structure Explains (I : Input) (Er : Finset (Sym2 SNode)) : Prop where
  sub : Er ⊆ esF I
  odd : ∀ k, SNode.stab k ∈ erasureNodes I → (I.odd k = true ↔ Odd (Er.filter (SNode.stab k ∈ ·)).card)

/-- A cluster of odd parity without boundary point is left by an edge of the error. -/
theorem CInv.leaves {I : Input} (hI : Wf I) {Er : Finset (Sym2 SNode)} (hE : Explains I Er) {s : St} {odd : List SNode}
    {rep : SNode → SNode} {dep : SNode → ℕ} (H : CInv I s (grownL s.status) odd rep dep)
    (her : ∀ k ∈ erasureEdges I, k ∈ grownL s.status) {u : SNode} (hu : u ∈ erasureNodes I)
    (ho : OddCls (erasureNodes I) (rootParity I) rep u) :
    ∃ p q, s(p, q) ∈ Er.filter (fun e => erased I.E e = false) ∧ Conn (grownL s.status) u p ∧ ¬ Conn (grownL s.status) u q := by
  obtain ⟨p, q, h1, h2, h3⟩ := leaving ((nsF I).filter fun v => rep v = rep u) Er
    (fun e he => hI.noloop e (by simpa using hE.sub he)) (by
      have h := ho.1
      rw [countP_card (erasureNodes_nodup hI), ← Nat.odd_iff] at h
      convert h using 2
      rw [Finset.filter_filter]
      refine Finset.filter_congr fun v hv => ?_
      rw [List.mem_toFinset] at hv
      simp only [decide_eq_true_eq]
      refine and_congr_right fun hr => ?_
      have hn := ho.2 v hv hr
      have hnc := (erasureNodes_sub hI hv).2
      cases v with
      | low => simp [isConn] at hnc
      | high => simp [isConn] at hnc
      | pt p => exact absurd ((rootParity_none hnc).2 ⟨p, rfl⟩) hn
      | stab k =>
        rw [← hE.odd k hv, rootParity_odd]
        constructor
        · exact fun h => ⟨k, rfl, h⟩
        · rintro ⟨k', h, h'⟩
          cases h
          exact h')
  have hreal : s(p, q) ∈ realE I.E := by simpa using hE.sub h1
  rw [Finset.mem_filter, List.mem_toFinset] at h2
  have hq := mem_erasureNodes_right hI hreal
  have c1 : Conn (grownL s.status) u p := (H.conn u hu p h2.1).1 h2.2.symm
  have c2 : ¬ Conn (grownL s.status) u q := fun h => h3 (by
    rw [Finset.mem_filter, List.mem_toFinset]
    exact ⟨hq, ((H.conn u hu q hq).2 h).symm⟩)
  refine ⟨p, q, ?_, c1, c2⟩
  rw [Finset.mem_filter]
  refine ⟨h1, ?_⟩
  by_contra he
  refine c2 (c1.trans (Conn.edge (her _ ?_)))
  rw [erasureEdges, List.mem_filter]
  exact ⟨hreal, by simpa using he⟩

open Classical in
/-- Erased edges at a boundary point. -/
noncomputable def erasedBnd (I : Input) : Finset (Sym2 SNode) := (erasureEdges I).toFinset.filter fun e => ∃ p q, e = s(SNode.pt p, q)

open Classical in
/-- The clusters are not wider than what erasures and growth have paid for. -/
structure Width (P : ℤ) (x : SNode → ℤ) (y : Sym2 SNode → Option ℤ) (I : Input) (Er : Finset (Sym2 SNode)) (b : ℕ) (r : ℕ)
    (st : List (Sym2 SNode × Status)) (odd : List SNode) (rep : SNode → SNode) : Prop where
  ex : ∃ c rep' a L, Arcs P x y (nsF I) (esF I) (grownL st) (lvl st) c
      (2 * ((erasureEdges I).length + (∑ e ∈ Er.filter (fun e => erased I.E e = false), (lvl st e : ℤ)) + b)) rep' a L ∧
    Ghost (nsF I) (esF I) (grownL st) (lvl st) c ∧ ∀ u ∈ erasureNodes I, rep u ∈ odd → c u = r % 2

variable {P : ℤ} {x : SNode → ℤ} {y : Sym2 SNode → Option ℤ}

theorem Width.round {I : Input} (hI : Wf I) (A : Axis P x y (nsF I) (esF I)) {Er : Finset (Sym2 SNode)} (hE : Explains I Er)
    {b r : ℕ}
    {s s' : St} {odd odd' : List SNode} {rep rep' : SNode → SNode} {dep dep' : SNode → ℕ}
    (H : CInv I s (grownL s.status) odd rep dep) (H' : CInv I s' (grownL s'.status) odd' rep' dep') (hodd : ∀ c ∈ odd, rep c = c)
    (h1 : ∀ u w, s(u, w) ∈ realE I.E → lvl s'.status s(u, w) = min 2 (lvl s.status s(u, w) +
        ((if rep u ∈ odd then 1 else 0) + if rep w ∈ odd then 1 else 0)))
    (h2 : ∀ r ∈ odd', ∃ c ∈ odd, rep' c = r)
    (W : Width P x y I Er b r s.status odd rep) {Fb : Finset (Sym2 SNode)} (hFb : ∀ e ∈ Fb, e ∈ grownL s.status)
    (hF : ∀ u ∈ erasureNodes I, rep u ∈ odd →
      (∃ p q, s(p, q) ∈ Er.filter (fun e => erased I.E e = false) ∧ Conn (grownL s.status) u p ∧ ¬ Conn (grownL s.status) u q) ∨
      ∃ p q, s(p, q) ∈ Fb ∧ Conn (grownL s.status) u p) :
    Width P x y I Er (b + Fb.card) (r + 1) s'.status odd' rep' := by
  classical
  obtain ⟨c, rp, a, L, HA, K, hc⟩ := W.ex
  have hsub : ∀ k ∈ grownL s.status, k ∈ realE I.E := fun k hk => grownL_sub H.status hk
  have hsub' : ∀ k ∈ grownL s'.status, k ∈ realE I.E := fun k hk => grownL_sub H'.status hk
  obtain ⟨rp', a', L', HA', K', hpar⟩ := K.round A (fun u h => hI.noloop _ (by simpa using h) (by simp)) HA r
    (fun u => u ∈ erasureNodes I ∧ rep u ∈ odd) (lv' := lvl s'.status) (D' := grownL s'.status)
    (F := Er.filter (fun e => erased I.E e = false)) (Fb := Fb)
    (fun u v huv hu => by
      have hv := conn_mem hI hsub hu.1 huv
      exact ⟨hv, (H.conn u hu.1 v hv).2 huv ▸ hu.2⟩)
    (fun u hu => hc u hu.1 hu.2)
    (fun u v he => by
      have he' : s(u, v) ∈ realE I.E := by simpa using he
      rw [h1 u v he']
      simp only [mem_erasureNodes_left hI he', mem_erasureNodes_right hI he', true_and])
    (fun e => ⟨fun h => ⟨by simpa using hsub' e h, mem_grownL.1 h⟩, fun h => mem_grownL.2 h.2⟩)
    (fun e he => hE.sub (Finset.mem_filter.1 he).1) hFb
    (fun u hu hg => hF u hg.1 hg.2)
  refine ⟨_, rp', a', L', HA'.weaken (fun _ _ => le_rfl) (le_of_eq ?_) (fun _ => Iff.rfl) (fun _ _ => le_rfl), K', ?_⟩
  · rw [Finset.sum_sub_distrib]
    push_cast
    ring
  · intro u hu ho
    obtain ⟨d, hd, hdr⟩ := h2 _ ho
    have hdn := H.odd_mem d hd
    have hcd : Conn (grownL s'.status) d u := (H'.conn d hdn u hu).1 hdr
    exact hpar d u ⟨hdn, by rwa [hodd d hd]⟩ hcd

theorem Width.all {I : Input} (hI : Wf I) (A : Axis P x y (nsF I) (esF I)) {Er : Finset (Sym2 SNode)} (hE : Explains I Er)
    {b : ℕ} (io : IterOrder SNode) (fuel : ℕ) : ∀ (t r : ℕ) (s s' : St) (odd : List SNode) (rep : SNode → SNode) (dep : SNode → ℕ),
    CInv I s (grownL s.status) odd rep dep → (∀ k ∈ erasureEdges I, k ∈ grownL s.status) →
    (∀ c ∈ odd, rep c = c ∧ OddCls (erasureNodes I) (rootParity I) rep c) → Width P x y I Er b r s.status odd rep →
    unionFind io I fuel t s odd = some s' → ∃ rep' r', Width P x y I Er b r' s'.status [] rep' := by
  induction fuel with
  | zero =>
    intro t r s s' odd rep dep H her ho W h
    cases odd with
    | nil => cases h; exact ⟨rep, r, W⟩
    | cons c odd => simp [unionFind] at h
  | succ fuel ih =>
    intro t r s s' odd rep dep H her ho W h
    cases odd with
    | nil => cases h; exact ⟨rep, r, W⟩
    | cons c odd =>
      obtain ⟨s1, odd1, rep1, dep1, e, H1, ⟨g1, g2⟩, ho1, m, _⟩ := round_exact hI io t H fun c hc => (ho c hc).1
      rw [unionFind, e] at h
      have W1 := W.round hI A hE H H1 (fun c hc => (ho c hc).1) g1 g2 (Fb := ∅) (by simp) (fun u hu hr => Or.inl (by
        refine H.leaves hI hE her hu ?_
        have := (ho _ hr).2
        unfold OddCls at this ⊢
        rwa [H.heap.rep_rep u hu] at this))
      exact ih (t + 1) (r + 1) s1 s' odd1 rep1 dep1 H1 (fun k hk => mem_grownL.2 (by
        have h1 := mem_grownL.1 (her k hk)
        have h2 := m k
        have h3 := lvl_le s1.status k
        omega)) ho1 (by simpa using W1) h

theorem conn_first {N : Type} {D : List (Sym2 N)} {u v : N} (h : Conn D u v) (hne : u ≠ v) : ∃ w, s(u, w) ∈ D := by
  rcases Relation.ReflTransGen.cases_head h with h | ⟨w, hw, _⟩
  · exact absurd h hne
  · exact ⟨w, hw⟩

/-- The width of the clusters at the end. -/
theorem unionFind_width (cl : CompLib SNode) (io : IterOrder SNode) {I : Input} (hI : Wf I) (A : Axis P x y (nsF I) (esF I))
    {Er : Finset (Sym2 SNode)} (hE : Explains I Er) {fuel : ℕ} {s s' : St} {odd : List SNode}
    (hs : initState cl io I = some (s, odd)) (hu : unionFind io I fuel 0 s odd = some s') :
    ∃ c rep a L, Arcs P x y (nsF I) (esF I) (grownL s'.status) (lvl s'.status) c
      (2 * ((erasureEdges I).length + (∑ e ∈ Er.filter (fun e => erased I.E e = false), (lvl s'.status e : ℤ)) + (erasedBnd I).card)) rep a L := by
  classical
  obtain ⟨s0, odd0, rep, dep, e, hst, H, ho, hp, -⟩ := initState_exact cl io hI
  rw [hs] at e
  cases e
  have her : ∀ k, k ∈ grownL s.status ↔ k ∈ erasureEdges I := fun k => by rw [hst, supportInit_grown hI]
  have hlv : ∀ k ∈ realE I.E, lvl s.status k = if k ∈ erasureEdges I then 2 else 0 := by
    intro k hk
    have hg : PyDict.get? (supportInit I.E) k = some (if erased I.E k then Status.grown else .empty) := by
      rw [PyDict.get?_iff_mem (supportInit_inv hI).nodup, supportInit_eq hI, List.mem_map]
      exact ⟨k, hk, rfl⟩
    rw [hst, lvl, hg]
    by_cases hk2 : erased I.E k = true
    · rw [if_pos (show k ∈ erasureEdges I from List.mem_filter.2 ⟨hk, hk2⟩), if_pos hk2]
    · rw [if_neg (show k ∉ erasureEdges I from fun h => hk2 (List.mem_filter.1 h).2), if_neg hk2]
  have hF0 : ∀ k ∈ Er.filter (fun e => erased I.E e = false), (lvl s.status k : ℤ) = 0 := by
    intro k hk
    rw [Finset.mem_filter] at hk
    rw [hlv k (by simpa using hE.sub hk.1), if_neg]
    · rfl
    · rw [erasureEdges, List.mem_filter, hk.2]
      simp
  have hW0 : Width P x y I Er 0 0 s.status odd rep := by
    obtain ⟨rp, a, L, HA⟩ := Arcs.init A (erasureEdges I) (fun e he => by simpa using List.mem_of_mem_filter he)
    refine ⟨fun _ => 0, rp, a, L, HA.weaken (fun _ _ => le_rfl) (le_of_eq ?_) (fun k => (her k).symm) (fun k hk => ?_), ?_, ?_⟩
    · rw [Finset.sum_eq_zero hF0]; simp
    · rw [hlv k (by simpa using hk)]
    · refine ⟨fun k => ?_, fun k _ => lvl_le _ _, fun _ => by omega, fun u v he hc => ?_, fun _ _ _ => Nat.zero_le _, fun _ _ _ => rfl⟩
      · exact ⟨fun h => ⟨by simpa using grownL_sub H.status h, mem_grownL.1 h⟩, fun h => mem_grownL.2 h.2⟩
      · rw [hlv _ (by simpa using he), if_neg]
        exact fun h => hc (Conn.edge ((her _).2 h))
    · intro u _ _; rfl
  have hfin : ∃ rep' r' b, b ≤ (erasedBnd I).card ∧ Width P x y I Er b r' s'.status [] rep' := by
    cases odd with
    | nil =>
      rw [unionFind_nil] at hu
      cases hu
      exact ⟨rep, 0, 0, Nat.zero_le _, hW0⟩
    | cons c odd =>
      cases fuel with
      | zero => simp [unionFind] at hu
      | succ fuel =>
      obtain ⟨s1, odd1, rep1, dep1, e, H1, ⟨g1, g2⟩, ho1, m, _⟩ := round_exact hI io 0 H ho
      rw [unionFind, e] at hu
      have W1 := hW0.round hI A hE H H1 ho g1 g2 (Fb := erasedBnd I) (fun k hk => by
          rw [erasedBnd, Finset.mem_filter, List.mem_toFinset] at hk
          exact (her k).2 hk.1) (fun u hun hr => by
        have hpar := hp _ hr
        rw [H.heap.parity u hun, decide_eq_true_eq] at hpar
        by_cases hb : ∀ v ∈ erasureNodes I, rep v = rep u → rootParity I v ≠ none
        · exact Or.inl (H.leaves hI hE (fun k hk => (her k).2 hk) hun ⟨hpar, hb⟩)
        · right
          push Not at hb
          obtain ⟨v, hv, hvu, hvn⟩ := hb
          obtain ⟨p, rfl⟩ := (rootParity_none (erasureNodes_sub hI hv).2).1 hvn
          have : 0 < (erasureNodes I).countP fun w => decide (rep w = rep u ∧ rootParity I w = some true) := by omega
          obtain ⟨w, hw, hwu⟩ := List.countP_pos_iff.1 this
          rw [decide_eq_true_eq] at hwu
          have hc : Conn (grownL s.status) (SNode.pt p) w := (H.conn _ hv w hw).1 (hvu.trans hwu.1.symm)
          obtain ⟨q, hq⟩ := conn_first hc (fun h => by rw [← h, hvn] at hwu; simp at hwu)
          refine ⟨SNode.pt p, q, ?_, (H.conn _ hun _ hv).1 hvu.symm⟩
          rw [erasedBnd, Finset.mem_filter, List.mem_toFinset]
          exact ⟨(her _).1 hq, p, q, rfl⟩)
      obtain ⟨rep', r', W'⟩ := Width.all hI A hE io fuel 1 1 s1 s' odd1 rep1 dep1 H1 (fun k hk => mem_grownL.2 (by
        have h1 := mem_grownL.1 ((her k).2 hk)
        have h2 := m k
        have h3 := lvl_le s1.status k
        omega)) ho1 W1 hu
      exact ⟨rep', r', _, by simp, W'⟩
  obtain ⟨rep', r', b, hb, ⟨c, rp, a, L, HA, _, _⟩⟩ := hfin
  refine ⟨c, rp, a, L, HA.weaken (fun _ _ => le_rfl) ?_ (fun _ => Iff.rfl) (fun _ _ => le_rfl)⟩
  have : (b : ℤ) ≤ (erasedBnd I).card := by exact_mod_cast hb
  linarith

end Flamingpy.UnionFind
