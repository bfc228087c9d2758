import Verif.Spec.UnionFind
import Verif.Proofs.UfHist
import Verif.Proofs.PyDict
import Verif.Proofs.Decoder

/-! # Growing and fusing the clusters -/

namespace Flamingpy.UnionFind

open Flamingpy SurfaceCode

theorem isConn_iff {n : SNode} : isConn n = false ↔ n ≠ .low ∧ n ≠ .high := by
  cases n <;> simp [isConn]

theorem mem_realE {E : List (Sym2 SNode × ℚ)} {a b : SNode} :
    s(a, b) ∈ realE E ↔ s(a, b) ∈ PyDict.keys E ∧ isConn a = false ∧ isConn b = false := by
  unfold realE
  rw [List.mem_filter, decide_eq_true_eq, isConn_iff, isConn_iff, Sym2.mem_iff, Sym2.mem_iff]
  constructor
  · rintro ⟨h, h1⟩
    push Not at h1
    exact ⟨h, ⟨h1.1.1.symm, h1.2.1.symm⟩, h1.1.2.symm, h1.2.2.symm⟩
  · rintro ⟨h, h1, h2⟩
    refine ⟨h, ?_⟩
    push Not
    exact ⟨⟨h1.1.symm, h2.1.symm⟩, h1.2.symm, h2.2.symm⟩

theorem mem_outEdges {I : Input} (hI : Wf I) {io : IterOrder SNode} {t : ℕ} {n a b : SNode} :
    (a, b) ∈ outEdges io t I n ↔ a = n ∧ s(n, b) ∈ realE I.E := by
  unfold outEdges
  rw [List.mem_filter, List.mem_map, mem_realE]
  constructor
  · rintro ⟨⟨m, hm, he⟩, hc⟩
    rw [(io.perm t _).mem_iff, List.mem_filter, decide_eq_true_eq] at hm
    obtain ⟨rfl, rfl⟩ := Prod.mk.inj he
    simp only [Bool.and_eq_true, Bool.not_eq_true'] at hc
    exact ⟨rfl, hm.2, hc⟩
  · rintro ⟨rfl, h1, h2, h3⟩
    refine ⟨⟨b, ?_, rfl⟩, by simp [h2, h3]⟩
    rw [(io.perm t _).mem_iff, List.mem_filter, decide_eq_true_eq]
    exact ⟨hI.ends _ (mem_realE.2 ⟨h1, h2, h3⟩) b (by simp), h1⟩

theorem mem_erasureNodes {I : Input} (hI : Wf I) {n : SNode} :
    n ∈ erasureNodes I ↔ ∃ e ∈ realE I.E, n ∈ e := by
  unfold erasureNodes
  rw [List.mem_filter, List.any_eq_true]
  simp only [decide_eq_true_eq]
  exact ⟨fun h => h.2, fun ⟨e, he, hn⟩ => ⟨hI.ends e he n hn, e, he, hn⟩⟩

theorem mem_erasureNodes_left {I : Input} (hI : Wf I) {a b : SNode} (h : s(a, b) ∈ realE I.E) : a ∈ erasureNodes I :=
  (mem_erasureNodes hI).2 ⟨_, h, by simp⟩

theorem mem_erasureNodes_right {I : Input} (hI : Wf I) {a b : SNode} (h : s(a, b) ∈ realE I.E) : b ∈ erasureNodes I :=
  (mem_erasureNodes hI).2 ⟨_, h, by simp⟩

theorem erasureNodes_nodup {I : Input} (hI : Wf I) : (erasureNodes I).Nodup := hI.nodup.filter _

theorem realE_nodup {I : Input} (hI : Wf I) : (realE I.E).Nodup := hI.keys.filter _

/-! ### The support table -/

/-- The table has exactly the real edges. -/
structure SInv (I : Input) (st : List (Sym2 SNode × Status)) : Prop where
  nodup : (PyDict.keys st).Nodup
  keys : ∀ k, k ∈ PyDict.keys st ↔ k ∈ realE I.E

def lvl (st : List (Sym2 SNode × Status)) (k : Sym2 SNode) : ℕ := match PyDict.get? st k with
  | none => 0
  | some .empty => 0
  | some .half => 1
  | some .grown => 2

theorem lvl_le (st : List (Sym2 SNode × Status)) (k : Sym2 SNode) : lvl st k ≤ 2 := by
  unfold lvl; split <;> omega

theorem lvl_two {st : List (Sym2 SNode × Status)} {k : Sym2 SNode} : lvl st k = 2 ↔ PyDict.get? st k = some .grown := by
  unfold lvl; split <;> simp_all

theorem mem_grownL {st : List (Sym2 SNode × Status)} {k : Sym2 SNode} : k ∈ grownL st ↔ lvl st k = 2 := by
  unfold grownL
  rw [List.mem_filter, decide_eq_true_eq, lvl_two]
  refine ⟨fun h => h.2, fun h => ⟨?_, h⟩⟩
  rw [← PyDict.get?_isSome_iff, h]; rfl

theorem grownL_sub {I : Input} {st : List (Sym2 SNode × Status)} (h : SInv I st) {k : Sym2 SNode} (hk : k ∈ grownL st) :
    k ∈ realE I.E := (h.keys k).1 (List.mem_of_mem_filter hk)

theorem grow_spec {I : Input} {st : List (Sym2 SNode × Status)} (h : SInv I st) (e : SNode × SNode)
    (he : s(e.1, e.2) ∈ realE I.E) :
    ∃ st' b, grow st e = some (st', b) ∧ SInv I st' ∧ (∀ k, lvl st k ≤ lvl st' k) ∧
      (lvl st s(e.1, e.2) < 2 → lvl st s(e.1, e.2) < lvl st' s(e.1, e.2)) ∧
      (b = true → lvl st' s(e.1, e.2) = 2) ∧
      ∀ k, lvl st k < 2 → lvl st' k = 2 → b = true ∧ k = s(e.1, e.2) := by
  have hk : s(e.1, e.2) ∈ PyDict.keys st := (h.keys _).2 he
  obtain ⟨x, hx⟩ := Option.isSome_iff_exists.1 ((PyDict.get?_isSome_iff st _).2 hk)
  have hset : ∀ y, SInv I (PyDict.set st s(e.1, e.2) y) := fun y => by
    refine ⟨PyDict.keys_set_nodup _ _ h.nodup, fun k => ?_⟩
    rw [PyDict.keys_set_of_mem y hk]; exact h.keys k
  have hl : ∀ y k, lvl (PyDict.set st s(e.1, e.2) y) k = if s(e.1, e.2) = k then (match y with
      | .empty => 0 | .half => 1 | .grown => 2) else lvl st k := by
    intro y k
    unfold lvl
    rw [PyDict.get?_set]
    split_ifs <;> cases y <;> rfl
  unfold grow
  rw [hx]
  cases x with
  | empty =>
    have h0 : lvl st s(e.1, e.2) = 0 := by unfold lvl; rw [hx]
    refine ⟨_, _, rfl, hset _, fun k => ?_, fun _ => ?_, fun hc => absurd hc (by simp), fun k h1 h2 => ?_⟩
    · rw [hl]; split_ifs with hc
      · rw [← hc, h0]; exact Nat.zero_le _
      · exact le_rfl
    · rw [hl, if_pos rfl, h0]; simp
    · rw [hl] at h2
      split_ifs at h2 with hc
      · exact absurd h2 (by decide)
      · omega
  | half =>
    have h0 : lvl st s(e.1, e.2) = 1 := by unfold lvl; rw [hx]
    refine ⟨_, _, rfl, hset _, fun k => ?_, fun _ => ?_, fun _ => ?_, fun k h1 h2 => ?_⟩
    · rw [hl]; split_ifs with hc
      · rw [← hc, h0]; simp
      · exact le_rfl
    · rw [hl, if_pos rfl, h0]; simp
    · rw [hl, if_pos rfl]
    · rw [hl] at h2
      split_ifs at h2 with hc
      · exact ⟨rfl, hc.symm⟩
      · omega
  | grown =>
    have h0 : lvl st s(e.1, e.2) = 2 := by unfold lvl; rw [hx]
    exact ⟨_, _, rfl, h, fun _ => le_rfl, fun hc => by omega, fun hc => absurd hc (by simp), fun k h1 h2 => by omega⟩

theorem grow_exact {st st' : List (Sym2 SNode × Status)} {e : SNode × SNode} {b : Bool} (h : grow st e = some (st', b))
    (k : Sym2 SNode) : lvl st' k = min 2 (lvl st k + if s(e.1, e.2) = k then 1 else 0) := by
  have hl : ∀ y k, lvl (PyDict.set st s(e.1, e.2) y) k = if s(e.1, e.2) = k then (match y with
      | .empty => 0 | .half => 1 | .grown => 2) else lvl st k := by
    intro y k
    unfold lvl
    rw [PyDict.get?_set]
    split_ifs <;> cases y <;> rfl
  have hle := lvl_le st k
  unfold grow at h
  cases hx : PyDict.get? st s(e.1, e.2) with
  | none => rw [hx] at h; cases h
  | some x =>
    rw [hx] at h
    cases x with
    | empty =>
      have h0 : lvl st s(e.1, e.2) = 0 := by unfold lvl; rw [hx]
      simp only [Option.some.injEq, Prod.mk.injEq] at h
      rw [← h.1, hl]
      split_ifs with hc
      · rw [← hc, h0]; decide
      · omega
    | half =>
      have h0 : lvl st s(e.1, e.2) = 1 := by unfold lvl; rw [hx]
      simp only [Option.some.injEq, Prod.mk.injEq] at h
      rw [← h.1, hl]
      split_ifs with hc
      · rw [← hc, h0]; decide
      · omega
    | grown =>
      have h0 : lvl st s(e.1, e.2) = 2 := by unfold lvl; rw [hx]
      simp only [Option.some.injEq, Prod.mk.injEq] at h
      rw [← h.1]
      split_ifs with hc
      · rw [← hc, h0]; decide
      · omega

theorem growFold_spec {I : Input} (L : List (SNode × SNode)) (hL : ∀ e ∈ L, s(e.1, e.2) ∈ realE I.E)
    (st : List (Sym2 SNode × Status)) (h : SInv I st) (fl0 : List (SNode × SNode)) :
    ∃ st' fl, L.foldlM (fun (p : List (Sym2 SNode × Status) × List (SNode × SNode)) e => do
        let (status, grown) ← grow p.1 e
        pure (status, if grown then p.2 ++ [e] else p.2)) (st, fl0) = some (st', fl0 ++ fl) ∧
      SInv I st' ∧ (∀ k, lvl st k ≤ lvl st' k) ∧
      (∀ e ∈ L, lvl st s(e.1, e.2) < 2 → lvl st s(e.1, e.2) < lvl st' s(e.1, e.2)) ∧
      (∀ e ∈ fl, e ∈ L ∧ lvl st' s(e.1, e.2) = 2) ∧
      (∀ k, lvl st k < 2 → lvl st' k = 2 → ∃ e ∈ fl, s(e.1, e.2) = k) ∧
      ∀ k, lvl st' k = min 2 (lvl st k + L.countP fun e => decide (s(e.1, e.2) = k)) := by
  induction L generalizing st fl0 with
  | nil =>
    refine ⟨st, [], by simp, h, fun _ => le_rfl, by simp, by simp, fun k h1 h2 => by omega, fun k => ?_⟩
    have := lvl_le st k
    simp only [List.countP_nil]
    omega
  | cons e L ih =>
    obtain ⟨st1, b, e1, h1, m1, g1, b1, n1⟩ := grow_spec h e (hL e (by simp))
    obtain ⟨st2, fl, e2, h2, m2, g2, b2, n2, x2⟩ := ih (fun x hx => hL x (by simp [hx])) st1 h1 (if b then fl0 ++ [e] else fl0)
    refine ⟨st2, if b then e :: fl else fl, ?_, h2, fun k => (m1 k).trans (m2 k), ?_, ?_, ?_, fun k => ?_⟩
    · rw [List.foldlM_cons]
      simp only [e1, Option.bind_eq_bind, Option.bind_some, Option.pure_def]
      simp only [Option.bind_eq_bind, Option.pure_def] at e2
      rw [e2]
      cases b <;> simp
    · intro x hx hlt
      have hm := m2 s(x.1, x.2)
      rcases List.mem_cons.1 hx with rfl | hx
      · have := g1 hlt; omega
      · by_cases hc : lvl st1 s(x.1, x.2) < 2
        · have := g2 x hx hc
          have := m1 s(x.1, x.2)
          omega
        · omega
    · intro x hx
      have : x ∈ fl ∨ (b = true ∧ x = e) := by
        cases b <;> simp at hx
        · exact Or.inl hx
        · rcases hx with rfl | hx
          · exact Or.inr ⟨rfl, rfl⟩
          · exact Or.inl hx
      rcases this with hx | ⟨hb, rfl⟩
      · exact ⟨List.mem_cons_of_mem _ (b2 x hx).1, (b2 x hx).2⟩
      · have := b1 hb
        have := m2 s(x.1, x.2)
        have := lvl_le st2 s(x.1, x.2)
        exact ⟨by simp, by omega⟩
    · intro k hk1 hk2
      by_cases hc : lvl st1 k = 2
      · obtain ⟨rfl, rfl⟩ := n1 k hk1 hc
        exact ⟨e, by simp, rfl⟩
      · have := lvl_le st1 k
        obtain ⟨x, hx, hxk⟩ := n2 k (by omega) hk2
        exact ⟨x, by cases b <;> simp [hx], hxk⟩
    · rw [x2, grow_exact e1, List.countP_cons]
      simp only [decide_eq_true_eq]
      omega

/-! ### Boundaries -/

/-- A real edge at `u` is not fully grown. -/
def Open (I : Input) (st : List (Sym2 SNode × Status)) (u : SNode) : Prop :=
  ∃ w, s(u, w) ∈ realE I.E ∧ lvl st s(u, w) < 2

theorem onBoundary_spec {I : Input} (hI : Wf I) {st : List (Sym2 SNode × Status)} (h : SInv I st) (io : IterOrder SNode)
    (t : ℕ) (n : SNode) : ∃ b, onBoundary io t I st n = some b ∧ (b = true ↔ Open I st n) := by
  have hm : (outEdges io t I n).mapM (fun e => PyDict.get? st s(e.1, e.2)) =
      some ((outEdges io t I n).map fun e => (PyDict.get? st s(e.1, e.2)).getD .empty) := by
    apply mapM_some'
    rintro ⟨a, b⟩ he
    obtain ⟨rfl, hr⟩ := (mem_outEdges hI).1 he
    obtain ⟨x, hx⟩ := Option.isSome_iff_exists.1 ((PyDict.get?_isSome_iff st _).2 ((h.keys _).2 hr))
    simp only [hx, Option.getD_some]
  refine ⟨_, by unfold onBoundary; rw [hm]; rfl, ?_⟩
  rw [List.any_eq_true]
  constructor
  · rintro ⟨x, hx, hn⟩
    obtain ⟨⟨a, b⟩, he, rfl⟩ := List.mem_map.1 hx
    obtain ⟨rfl, hr⟩ := (mem_outEdges hI).1 he
    refine ⟨b, hr, ?_⟩
    have := lvl_le st s(a, b)
    rcases Nat.lt_or_ge (lvl st s(a, b)) 2 with h2 | h2
    · exact h2
    · have h3 := lvl_two.1 (by omega : lvl st s(a, b) = 2)
      simp [h3] at hn
  · rintro ⟨w, hr, hl⟩
    refine ⟨_, List.mem_map.2 ⟨(n, w), (mem_outEdges hI).2 ⟨rfl, hr⟩, rfl⟩, ?_⟩
    obtain ⟨x, hx⟩ := Option.isSome_iff_exists.1 ((PyDict.get?_isSome_iff st _).2 ((h.keys _).2 hr))
    simp only [hx, Option.getD_some, decide_eq_true_eq]
    rintro rfl
    rw [lvl_two.2 hx] at hl
    omega

theorem filterAuxM_some {A : Type} (f : A → Option Bool) (g : A → Bool) (l acc : List A) (h : ∀ a ∈ l, f a = some (g a)) :
    List.filterAuxM f l acc = some ((l.filter g).reverse ++ acc) := by
  induction l generalizing acc with
  | nil => rfl
  | cons a l ih =>
    rw [List.filterAuxM, h a (by simp)]
    simp only [Option.bind_eq_bind, Option.bind_some]
    rw [ih _ fun b hb => h b (by simp [hb])]
    cases hg : g a <;> simp [hg]

theorem filterM_some {A : Type} (f : A → Option Bool) (g : A → Bool) (l : List A) (h : ∀ a ∈ l, f a = some (g a)) :
    l.filterM f = some (l.filter g) := by
  unfold List.filterM
  rw [filterAuxM_some f g l [] h]
  simp

theorem prune_spec {I : Input} (hI : Wf I) {st : List (Sym2 SNode × Status)} (h : SInv I st) (io : IterOrder SNode)
    (t : ℕ) (l : List SNode) : ∃ l', prune io t I st l = some l' ∧ (∀ u, u ∈ l' ↔ u ∈ l ∧ Open I st u) ∧ (l.Nodup → l'.Nodup) := by
  classical
  refine ⟨l.filter fun u => decide (Open I st u), ?_, fun u => by simp, fun h => h.filter _⟩
  apply filterM_some
  intro u _
  obtain ⟨b, hb, hb'⟩ := onBoundary_spec hI h io t u
  rw [hb]
  congr 1
  rw [Bool.eq_iff_iff, hb', decide_eq_true_eq]

end Flamingpy.UnionFind
