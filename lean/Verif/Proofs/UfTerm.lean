import Verif.Proofs.UfInit
import Mathlib.Algebra.Order.BigOperators.Group.Finset
import Mathlib.Algebra.BigOperators.Ring.Finset

/-! # The growth ends -/

namespace Flamingpy.UnionFind

open Flamingpy SurfaceCode

theorem rootParity_none {I : Input} {n : SNode} (hn : isConn n = false) : rootParity I n = none ↔ ∃ p, n = .pt p := by
  cases n <;> simp [rootParity, isConn] at *

theorem rootParity_odd {I : Input} {n : SNode} : rootParity I n = some true ↔ ∃ k, n = .stab k ∧ I.odd k = true := by
  cases n <;> simp [rootParity]

theorem conn_mem {I : Input} (hI : Wf I) {D : List (Sym2 SNode)} (hD : ∀ k ∈ D, k ∈ realE I.E) {u v : SNode}
    (hu : u ∈ erasureNodes I) (h : Conn D u v) : v ∈ erasureNodes I := by
  induction h with
  | refl => exact hu
  | tail _ hyz _ => exact mem_erasureNodes_right hI (hD _ hyz)

/-- What `OddCls` says in terms of the fused edges. -/
theorem CInv.oddCls_iff {I : Input} (hI : Wf I) {s : St} {D : List (Sym2 SNode)} {odd : List SNode} {rep : SNode → SNode}
    {dep : SNode → ℕ} (H : CInv I s D odd rep dep) (hD : ∀ k ∈ D, k ∈ realE I.E) {v : SNode} (hv : v ∈ erasureNodes I) :
    OddCls (erasureNodes I) (rootParity I) rep v ↔ ¬ Even (oddComp I D v).ncard ∧ ∀ p, ¬ Conn D v (.pt p) := by
  have hset : {u | u ∈ erasureNodes I ∧ (rep u = rep v ∧ rootParity I u = some true)} = oddComp I D v := by
    ext u
    constructor
    · rintro ⟨h1, h2, h3⟩
      obtain ⟨k, rfl, hk⟩ := rootParity_odd.1 h3
      exact ⟨k, rfl, (erasureNodes_sub hI h1).1, hk, (H.conn v hv _ h1).1 h2.symm⟩
    · rintro ⟨k, rfl, h1, h2, h3⟩
      have h4 := conn_mem hI hD hv h3
      exact ⟨h4, ((H.conn v hv _ h4).2 h3).symm, rootParity_odd.2 ⟨k, rfl, h2⟩⟩
  unfold OddCls
  rw [← ncard_countP (erasureNodes_nodup hI), hset, Nat.not_even_iff]
  refine and_congr_right fun _ => ⟨fun h p hc => ?_, fun h u hu huv hp => ?_⟩
  · have h4 := conn_mem hI hD hv hc
    exact h _ h4 ((H.conn v hv _ h4).2 hc).symm rfl
  · obtain ⟨p, rfl⟩ := (rootParity_none (erasureNodes_sub hI hu).2).1 hp
    exact h p ((H.conn v hv _ hu).1 huv.symm)

/-- An odd cluster without boundary point can grow. -/
theorem CInv.progress {I : Input} (hI : Wf I) (hok : CompOk I) {s : St} {odd : List SNode} {rep : SNode → SNode}
    {dep : SNode → ℕ} (H : CInv I s (grownL s.status) odd rep dep) {c : SNode} (hc : c ∈ erasureNodes I)
    (ho : OddCls (erasureNodes I) (rootParity I) rep c) : ∃ u ∈ erasureNodes I, rep u = rep c ∧ Open I s.status u := by
  by_contra hno
  push Not at hno
  have hD : ∀ k ∈ grownL s.status, k ∈ realE I.E := fun k => grownL_sub H.status
  have hcl : ∀ {u v}, u ∈ erasureNodes I → rep u = rep c → Conn (realE I.E) u v → Conn (grownL s.status) u v := by
    intro u v hu huc h
    induction h with
    | refl => exact Conn.refl _ _
    | @tail y z _ hyz ih =>
      have hy := conn_mem hI hD hu ih
      have hyc : rep y = rep c := ((H.conn u hu y hy).2 ih).symm.trans huc
      refine ih.trans (Conn.edge ?_)
      rw [mem_grownL]
      by_contra hl
      have := lvl_le s.status s(y, z)
      exact hno y hy hyc ⟨z, hyz, by omega⟩
  have hiff : ∀ {u v}, u ∈ erasureNodes I → rep u = rep c → (Conn (realE I.E) u v ↔ Conn (grownL s.status) u v) :=
    fun hu huc => ⟨hcl hu huc, fun h => h.mono hD⟩
  obtain ⟨h1, h2⟩ := ho
  obtain ⟨u, hu, hup⟩ := List.countP_pos_iff.1 (by omega : 0 < (erasureNodes I).countP fun u =>
    decide (rep u = rep c ∧ rootParity I u = some true))
  rw [decide_eq_true_eq] at hup
  obtain ⟨k, rfl, hk⟩ := rootParity_odd.1 hup.2
  have ho' : OddCls (erasureNodes I) (rootParity I) rep (.stab k) := by
    unfold OddCls; rw [hup.1]; exact ⟨h1, h2⟩
  obtain ⟨h3, h4⟩ := (H.oddCls_iff hI hD hu).1 ho'
  rcases hok k (erasureNodes_sub hI hu).1 hk with ⟨p, hp⟩ | he
  · exact h4 p ((hiff hu hup.1).1 hp)
  · apply h3
    have : oddComp I (grownL s.status) (.stab k) = oddComp I (realE I.E) (.stab k) := by
      unfold oddComp
      ext u
      simp only [Set.mem_setOf_eq, hiff hu hup.1]
    rw [this]
    exact he

/-- Total growth. -/
def growth (I : Input) (st : List (Sym2 SNode × Status)) : ℕ := ∑ k ∈ (realE I.E).toFinset, lvl st k

theorem growth_le (I : Input) (st : List (Sym2 SNode × Status)) : growth I st ≤ 2 * (realE I.E).length := by
  unfold growth
  calc _ ≤ ∑ _k ∈ (realE I.E).toFinset, 2 := Finset.sum_le_sum fun k _ => lvl_le st k
    _ = (realE I.E).toFinset.card * 2 := by rw [Finset.sum_const, smul_eq_mul]
    _ ≤ _ := by
      have := List.toFinset_card_le (realE I.E)
      omega

theorem growth_lt {I : Input} {st st' : List (Sym2 SNode × Status)} (h : ∀ k, lvl st k ≤ lvl st' k) {k : Sym2 SNode}
    (hk : k ∈ realE I.E) (hlt : lvl st k < lvl st' k) : growth I st < growth I st' :=
  Finset.sum_lt_sum (fun k _ => h k) ⟨k, by simpa using hk, hlt⟩

theorem growth_mono {I : Input} {st st' : List (Sym2 SNode × Status)} (h : ∀ k, lvl st k ≤ lvl st' k) :
    growth I st ≤ growth I st' := Finset.sum_le_sum fun k _ => h k

theorem unionFind_nil (io : IterOrder SNode) (I : Input) (fuel t : ℕ) (s : St) : unionFind io I fuel t s [] = some s := by
  cases fuel <;> rfl

theorem unionFind_aux {I : Input} (hI : Wf I) (hok : CompOk I) (io : IterOrder SNode) (fuel : ℕ) :
    ∀ (t : ℕ) (s : St) (odd : List SNode) (rep : SNode → SNode) (dep : SNode → ℕ), CInv I s (grownL s.status) odd rep dep →
    (∀ c ∈ odd, rep c = c ∧ OddCls (erasureNodes I) (rootParity I) rep c) →
    2 * (realE I.E).length - growth I s.status ≤ fuel →
    ∃ s' rep' dep', unionFind io I fuel t s odd = some s' ∧ CInv I s' (grownL s'.status) [] rep' dep' ∧
      ∀ k, lvl s.status k ≤ lvl s'.status k := by
  induction fuel with
  | zero =>
    intro t s odd rep dep H ho hf
    cases odd with
    | nil => exact ⟨s, rep, dep, rfl, H, fun _ => le_rfl⟩
    | cons c odd =>
      obtain ⟨u, hu, huc, w, hw, hl⟩ := H.progress hI hok (H.odd_mem c (by simp)) (ho c (by simp)).2
      obtain ⟨s', odd', rep', dep', _, _, _, m, g⟩ := round_spec hI io t H fun c hc => (ho c hc).1
      have h1 := growth_lt m hw (g c (by simp) u hu (by rw [huc, (ho c (by simp)).1]) w hw hl)
      have := growth_le I s'.status
      omega
  | succ fuel ih =>
    intro t s odd rep dep H ho hf
    cases odd with
    | nil => exact ⟨s, rep, dep, rfl, H, fun _ => le_rfl⟩
    | cons c odd =>
      obtain ⟨u, hu, huc, w, hw, hl⟩ := H.progress hI hok (H.odd_mem c (by simp)) (ho c (by simp)).2
      obtain ⟨s', odd', rep', dep', e, H', ho', m, g⟩ := round_spec hI io t H fun c hc => (ho c hc).1
      have h1 := growth_lt m hw (g c (by simp) u hu (by rw [huc, (ho c (by simp)).1]) w hw hl)
      obtain ⟨s2, rep2, dep2, e2, H2, m2⟩ := ih (t + 1) s' odd' rep' dep' H' ho' (by omega)
      refine ⟨s2, rep2, dep2, ?_, H2, fun k => (m k).trans (m2 k)⟩
      rw [unionFind, e]
      exact e2

/-- The growth ends within `2 |E| + 1` rounds. -/
theorem unionFind_spec (cl : CompLib SNode) (io : IterOrder SNode) {I : Input} (hI : Wf I) (hok : CompOk I) (fuel : ℕ)
    (hf : 2 * (realE I.E).length + 1 ≤ fuel) :
    ∃ s odd s' rep dep, initState cl io I = some (s, odd) ∧ unionFind io I fuel 0 s odd = some s' ∧
      CInv I s' (grownL s'.status) [] rep dep ∧ ∀ k ∈ erasureEdges I, k ∈ grownL s'.status := by
  obtain ⟨s, odd, rep, dep, e, hst, H, ho⟩ := initState_spec cl io hI
  have her : ∀ k ∈ erasureEdges I, lvl s.status k = 2 := fun k hk => by
    rw [hst, ← mem_grownL, supportInit_grown hI]; exact hk
  cases odd with
  | nil => exact ⟨s, [], s, rep, dep, e, unionFind_nil _ _ _ _ _, H, fun k hk => mem_grownL.2 (her k hk)⟩
  | cons c odd =>
    obtain ⟨s1, odd1, rep1, dep1, e1, H1, ho1, m, _⟩ := round_spec hI io 0 H ho
    obtain ⟨fuel, rfl⟩ : ∃ n, fuel = n + 1 := ⟨fuel - 1, by omega⟩
    obtain ⟨s2, rep2, dep2, e2, H2, m2⟩ := unionFind_aux hI hok io fuel 1 s1 odd1 rep1 dep1 H1 ho1 (by omega)
    refine ⟨s, c :: odd, s2, rep2, dep2, e, ?_, H2, fun k hk => ?_⟩
    · rw [unionFind, e1]
      exact e2
    · have h1 := her k hk
      have h2 := m k
      have h3 := m2 k
      have h4 := lvl_le s2.status k
      rw [mem_grownL]
      omega

/-- At the end every node is joined by grown edges to a boundary point or to an even number of odd stabilizers. -/
theorem CInv.final {I : Input} (hI : Wf I) {s : St} {rep : SNode → SNode} {dep : SNode → ℕ}
    (H : CInv I s (grownL s.status) [] rep dep) {v : SNode} (hv : v ∈ erasureNodes I) :
    (∃ p, Conn (grownL s.status) v (.pt p)) ∨ Even (oddComp I (grownL s.status) v).ncard := by
  by_contra hc
  push Not at hc
  obtain ⟨c, hc', _⟩ := H.odd v hv ((H.oddCls_iff hI (fun k => grownL_sub H.status) hv).2 ⟨hc.2, hc.1⟩)
  cases hc'

/-- A component of odd parity without boundary point contains an odd cluster. -/
theorem CInv.stuck {I : Input} (hI : Wf I) {s : St} {odd : List SNode} {rep : SNode → SNode} {dep : SNode → ℕ}
    (H : CInv I s (grownL s.status) odd rep dep) {v : SNode} (hv : v ∈ erasureNodes I)
    (h1 : ∀ p, ¬ Conn (realE I.E) v (.pt p)) (h2 : ¬ Even (oddComp I (realE I.E) v).ncard) : odd ≠ [] := by
  classical
  rintro rfl
  apply h2
  have hD : ∀ k ∈ grownL s.status, k ∈ realE I.E := fun k => grownL_sub H.status
  have hall : ∀ u, Conn (realE I.E) v u → Even (oddComp I (grownL s.status) u).ncard := fun u hu => by
    have hun := conn_mem hI (fun _ h => h) hv hu
    rcases H.final hI hun with ⟨p, hp⟩ | he
    · exact absurd (hu.trans (hp.mono hD)) (h1 p)
    · exact he
  obtain ⟨T, hT⟩ : ∃ T : Finset SNode, ↑T = oddComp I (realE I.E) v := by
    refine ⟨I.nodes.toFinset.filter fun u => u ∈ oddComp I (realE I.E) v, ?_⟩
    ext u
    simp only [Finset.coe_filter, List.mem_toFinset, Set.mem_setOf_eq]
    exact ⟨fun h => h.2, fun h => ⟨h.choose_spec.2.1, h⟩⟩
  rw [← hT, Set.ncard_coe_finset, Finset.card_eq_sum_card_fiberwise (f := rep) (t := T.image rep)
    (fun x hx => Finset.mem_coe.2 (Finset.mem_image_of_mem _ hx))]
  rw [even_iff_two_dvd]
  refine Finset.dvd_sum fun r hr => (even_iff_two_dvd (α := ℕ)).1 ?_
  obtain ⟨u, hu, rfl⟩ := Finset.mem_image.1 hr
  have hu' : u ∈ oddComp I (realE I.E) v := by rw [← hT]; exact Finset.mem_coe.2 hu
  obtain ⟨k, rfl, hk1, hk2, hk3⟩ := hu'
  have hun := conn_mem hI (fun _ h => h) hv hk3
  have := hall _ hk3
  suffices hsuf : ({a ∈ T | rep a = rep (SNode.stab k)}.card : ℕ) = (oddComp I (grownL s.status) (.stab k)).ncard by
    rw [hsuf]; exact this
  rw [← Set.ncard_coe_finset]
  congr 1
  ext x
  simp only [Finset.coe_filter, Set.mem_setOf_eq, ← Finset.mem_coe, hT]
  constructor
  · rintro ⟨⟨j, rfl, hj1, hj2, hj3⟩, he⟩
    exact ⟨j, rfl, hj1, hj2, (H.conn _ hun _ (conn_mem hI (fun _ h => h) hv hj3)).1 he.symm⟩
  · rintro ⟨j, rfl, hj1, hj2, hj3⟩
    exact ⟨⟨j, rfl, hj1, hj2, hk3.trans (hj3.mono hD)⟩, ((H.conn _ hun _ (conn_mem hI hD hun hj3)).2 hj3).symm⟩

/-- ... and then the growth never ends. -/
theorem unionFind_stuck {I : Input} (hI : Wf I) (io : IterOrder SNode) {v : SNode} (hv : v ∈ erasureNodes I)
    (h1 : ∀ p, ¬ Conn (realE I.E) v (.pt p)) (h2 : ¬ Even (oddComp I (realE I.E) v).ncard) (fuel : ℕ) :
    ∀ (t : ℕ) (s : St) (odd : List SNode) (rep : SNode → SNode) (dep : SNode → ℕ), CInv I s (grownL s.status) odd rep dep →
    (∀ c ∈ odd, rep c = c) → unionFind io I fuel t s odd = none := by
  induction fuel with
  | zero =>
    intro t s odd rep dep H ho
    cases odd with
    | nil => exact absurd rfl (H.stuck hI hv h1 h2)
    | cons c odd => rfl
  | succ fuel ih =>
    intro t s odd rep dep H ho
    cases odd with
    | nil => exact absurd rfl (H.stuck hI hv h1 h2)
    | cons c odd =>
      obtain ⟨s', odd', rep', dep', e, H', ho', _⟩ := round_spec hI io t H ho
      rw [unionFind, e]
      exact ih (t + 1) s' odd' rep' dep' H' fun c hc => (ho' c hc).1

end Flamingpy.UnionFind
