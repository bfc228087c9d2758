import Verif.Proofs.UfHeap
import Mathlib.Algebra.BigOperators.Group.Finset.Basic
import Mathlib.Algebra.Order.BigOperators.Group.Finset
import Mathlib.Tactic.Linarith
import Mathlib.Tactic.Ring
import Mathlib.Data.Int.Interval

/-!
# How wide the clusters of a decoder become

Nodes have a position on an axis (an integer, or an integer modulo `P`); an edge joins nodes at the same position, or at distance
two, and then it crosses the sheet between them.  Every cluster lies in an arc; the arcs together are not longer than what
was paid for by erasures and growth.
-/

namespace Flamingpy.UnionFind

variable {N : Type} [DecidableEq N]

/-- The positions of the two ends of an edge, and of the sheet it crosses. -/
def Step (P xu xv : ℤ) : Option ℤ → Prop
  | none => P ∣ xv - xu
  | some y => (P ∣ xv - xu - 2 ∧ P ∣ y - xu - 1) ∨ (P ∣ xv - xu + 2 ∧ P ∣ y - xu + 1)

theorem Step.symm {P xu xv : ℤ} {y : Option ℤ} (h : Step P xu xv y) : Step P xv xu y := by
  cases y with
  | none =>
    unfold Step at *
    rw [← Int.dvd_neg]; simpa using h
  | some y =>
    rcases h with ⟨h1, h2⟩ | ⟨h1, h2⟩
    · refine Or.inr ⟨?_, ?_⟩
      · rw [← Int.dvd_neg]; convert h1 using 1; ring
      · have := Int.dvd_sub h2 h1; convert this using 1; ring
    · refine Or.inl ⟨?_, ?_⟩
      · rw [← Int.dvd_neg]; convert h1 using 1; ring
      · have := Int.dvd_sub h2 h1; convert this using 1; ring

/-- The part of an edge grown to level `l` lies in the arc from `a` to `a + L`. -/
def EdgeIn (P a L y : ℤ) (l : ℕ) : Prop :=
  (0 < P ∧ P ≤ L) ∨ ∃ z, P ∣ z - y ∧ a + l ≤ z + 1 ∧ z + l ≤ a + L + 1

theorem EdgeIn.mono {P a L y a' L' t : ℤ} {l l' : ℕ} (h : EdgeIn P a L y l) (hl : l' ≤ l) (ht : P ∣ t) (h1 : a' ≤ a + t)
    (h2 : a + t + L ≤ a' + L') : EdgeIn P a' L' y l' := by
  rcases h with ⟨h3, h4⟩ | ⟨z, h3, h4, h5⟩
  · exact Or.inl ⟨h3, by omega⟩
  · refine Or.inr ⟨z + t, ?_, by omega, by omega⟩
    have := Int.dvd_add h3 ht
    convert this using 1; ring

theorem edgeIn_of_plus {P a L y zu zv : ℤ} {mu mv l : ℕ} (hP : 0 ≤ P) (hs : P ∣ zv - zu - 2) (hy : P ∣ y - zu - 1)
    (u1 : a + mu ≤ zu) (u2 : zu + mu ≤ a + L) (v1 : a + mv ≤ zv) (v2 : zv + mv ≤ a + L) (hl : l ≤ mu + mv) (hl2 : l ≤ 2) :
    EdgeIn P a L y l := by
  obtain ⟨k, hk⟩ := hs
  have d1 : P ∣ zu + 1 - y := by rw [← Int.dvd_neg]; convert hy using 1; ring
  have d2 : P ∣ zv - 1 - y := by
    have := Int.dvd_add d1 ⟨k, hk⟩; convert this using 1; ring
  rcases lt_trichotomy k 0 with h0 | h0 | h0
  · have h1 : P * k ≤ -P := by nlinarith
    by_cases hp : P = 0
    · subst hp
      refine Or.inr ⟨zu + 1, d1, ?_, ?_⟩ <;> omega
    · by_cases h2 : 2 ≤ mu + mv
      · exact Or.inl ⟨by omega, by omega⟩
      · by_cases hl0 : l = 0
        · exact Or.inr ⟨zu + 1, d1, by omega, by omega⟩
        · by_cases hmu : mu = 0
          · exact Or.inr ⟨zv - 1, d2, by omega, by omega⟩
          · exact Or.inr ⟨zu + 1, d1, by omega, by omega⟩
  · subst h0
    exact Or.inr ⟨zu + 1, d1, by omega, by omega⟩
  · have h1 : P ≤ P * k := by nlinarith
    by_cases hp : P = 0
    · subst hp
      refine Or.inr ⟨zu + 1, d1, ?_, ?_⟩ <;> omega
    · exact Or.inl ⟨by omega, by omega⟩

theorem edgeIn_of {P a L y xu xv zu zv : ℤ} {mu mv l : ℕ} (hP : 0 ≤ P) (hs : Step P xu xv (some y)) (hu : P ∣ zu - xu)
    (hv : P ∣ zv - xv)
    (u1 : a + mu ≤ zu) (u2 : zu + mu ≤ a + L) (v1 : a + mv ≤ zv) (v2 : zv + mv ≤ a + L) (hl : l ≤ mu + mv) (hl2 : l ≤ 2) :
    EdgeIn P a L y l := by
  rcases hs with ⟨h1, h2⟩ | ⟨h1, h2⟩
  · refine edgeIn_of_plus hP ?_ ?_ u1 u2 v1 v2 hl hl2
    · have := Int.dvd_sub (Int.dvd_add h1 hv) hu; convert this using 1; ring
    · have := Int.dvd_sub h2 hu; convert this using 1; ring
  · refine edgeIn_of_plus hP ?_ ?_ v1 v2 u1 u2 (by omega) hl2
    · have := Int.dvd_sub hu (Int.dvd_add h1 hv); convert this using 1; ring
    · have := Int.dvd_sub (Int.dvd_sub h2 h1) hv; convert this using 1; ring

/-- Two arcs that touch fit into one. -/
theorem merge_arcs {a1 L1 a2 L2 z1 z2 d : ℤ} {m1 m2 k : ℕ} (h1 : a1 + m1 ≤ z1) (h2 : z1 + m1 ≤ a1 + L1)
    (h3 : a2 + m2 ≤ z2) (h4 : z2 + m2 ≤ a2 + L2) (hd : |d| ≤ m1 + m2 + k) :
    ∃ a L : ℤ, L ≤ L1 + L2 + k ∧ 0 ≤ L ∧ a ≤ a1 ∧ a1 + L1 ≤ a + L ∧ a ≤ a2 + (z1 + d - z2) ∧
      a2 + (z1 + d - z2) + L2 ≤ a + L := by
  have := abs_le.1 hd
  refine ⟨min a1 (a2 + (z1 + d - z2)), max (a1 + L1) (a2 + (z1 + d - z2) + L2) - min a1 (a2 + (z1 + d - z2)), ?_, ?_, ?_, ?_,
    ?_, ?_⟩ <;> omega

/-- The clusters of `D` with their arcs: `m` are the margins of the nodes within the arcs, `lv` the levels of the edges. -/
structure Arcs (P : ℤ) (x : N → ℤ) (y : Sym2 N → Option ℤ) (ns : Finset N) (Es : Finset (Sym2 N)) (D : List (Sym2 N))
    (lv : Sym2 N → ℕ) (m : N → ℕ) (B : ℤ) (rep : N → N) (a L : N → ℤ) : Prop where
  mem : ∀ u ∈ ns, rep u ∈ ns
  idem : ∀ u ∈ ns, rep (rep u) = rep u
  conn : ∀ u ∈ ns, ∀ v ∈ ns, rep u = rep v ↔ Conn D u v
  nonneg : ∀ u ∈ ns, 0 ≤ L u
  lift : ∀ u ∈ ns, ∃ z, P ∣ z - x u ∧ a (rep u) + m u ≤ z ∧ z + m u ≤ a (rep u) + L (rep u)
  edge : ∀ u v, s(u, v) ∈ Es → rep u = rep v → ∀ y0, y s(u, v) = some y0 →
    EdgeIn P (a (rep u)) (L (rep u)) y0 (lv s(u, v))
  sum : ∑ r ∈ ns.filter (fun r => rep r = r), L r ≤ B

/-- The graph with its positions. -/
structure Axis (P : ℤ) (x : N → ℤ) (y : Sym2 N → Option ℤ) (ns : Finset N) (Es : Finset (Sym2 N)) : Prop where
  nonneg : 0 ≤ P
  left : ∀ u v, s(u, v) ∈ Es → u ∈ ns
  step : ∀ u v, s(u, v) ∈ Es → Step P (x u) (x v) (y s(u, v))

variable {P : ℤ} {x : N → ℤ} {y : Sym2 N → Option ℤ} {ns : Finset N} {Es : Finset (Sym2 N)} {D : List (Sym2 N)}
  {lv : Sym2 N → ℕ} {m : N → ℕ} {B : ℤ} {rep : N → N} {a L : N → ℤ}

theorem Axis.right (A : Axis P x y ns Es) {u v : N} (h : s(u, v) ∈ Es) : v ∈ ns := A.left v u (by rwa [Sym2.eq_swap])

theorem Arcs.weaken (H : Arcs P x y ns Es D lv m B rep a L) {m' : N → ℕ} {B' : ℤ} {D' : List (Sym2 N)} {lv' : Sym2 N → ℕ}
    (hm : ∀ u ∈ ns, m' u ≤ m u) (hB : B ≤ B') (hD : ∀ k, k ∈ D ↔ k ∈ D') (hlv : ∀ e ∈ Es, lv' e ≤ lv e) :
    Arcs P x y ns Es D' lv' m' B' rep a L := by
  refine ⟨H.mem, H.idem, fun u hu v hv => (H.conn u hu v hv).trans ⟨Conn.mono fun k hk => (hD k).1 hk,
    Conn.mono fun k hk => (hD k).2 hk⟩, H.nonneg, fun u hu => ?_, fun u v he hr y0 hy => ?_, H.sum.trans hB⟩
  · obtain ⟨z, h1, h2, h3⟩ := H.lift u hu
    have := hm u hu
    exact ⟨z, h1, by omega, by omega⟩
  · exact (H.edge u v he hr y0 hy).mono (hlv _ he) (dvd_zero P) (by omega) (by omega)

/-- Joining two clusters by an edge. -/
theorem Arcs.merge (A : Axis P x y ns Es) (H : Arcs P x y ns Es D lv m B rep a L) {u v : N} (he : s(u, v) ∈ Es)
    (huv : rep u ≠ rep v) {lv' : Sym2 N → ℕ} (hl2 : ∀ e ∈ Es, lv' e ≤ 2) (hsame : ∀ e ∈ Es, e ≠ s(u, v) → lv' e ≤ lv e)
    (hbet : ∀ p q, s(p, q) ∈ Es → s(p, q) ≠ s(u, v) → rep p ≠ rep q → lv' s(p, q) ≤ m p + m q) (k : ℕ)
    (hk : 2 ≤ m u + m v + k) :
    ∃ rep' a' L', Arcs P x y ns Es (s(u, v) :: D) lv' m (B + k) rep' a' L' ∧ ∀ p q, rep p = rep q → rep' p = rep' q := by
  have hu := A.left u v he
  have hv := A.right he
  obtain ⟨zu, du, u1, u2⟩ := H.lift u hu
  obtain ⟨zv, dv, v1, v2⟩ := H.lift v hv
  -- the offset
  obtain ⟨d, hd1, hd2, hd3⟩ : ∃ d : ℤ, P ∣ zu + d - zv ∧ |d| ≤ 2 ∧ ∀ y0, y s(u, v) = some y0 →
      ∃ z, P ∣ z - y0 ∧ ((z = zu + 1 ∧ z = zu + d - 1) ∨ (z = zu - 1 ∧ z = zu + d + 1)) := by
    have hs := A.step u v he
    cases hy : y s(u, v) with
    | none =>
      rw [hy] at hs
      refine ⟨0, ?_, by simp, by simp⟩
      have := Int.dvd_sub (Int.dvd_sub du dv) hs
      convert this using 1; ring
    | some y0 =>
      rw [hy] at hs
      rcases hs with ⟨h1, h2⟩ | ⟨h1, h2⟩
      · refine ⟨2, ?_, by simp, fun y1 hy1 => ⟨zu + 1, ?_, Or.inl ⟨rfl, by ring⟩⟩⟩
        · have := Int.dvd_sub (Int.dvd_sub du dv) h1
          convert this using 1; ring
        · obtain rfl : y0 = y1 := Option.some.inj hy1
          have := Int.dvd_sub du h2
          convert this using 1; ring
      · refine ⟨-2, ?_, by simp, fun y1 hy1 => ⟨zu - 1, ?_, Or.inr ⟨rfl, by ring⟩⟩⟩
        · have := Int.dvd_sub (Int.dvd_sub du dv) h1
          convert this using 1; ring
        · obtain rfl : y0 = y1 := Option.some.inj hy1
          have := Int.dvd_sub du h2
          convert this using 1; ring
  obtain ⟨a', L', hL, hL0, i1, i2, i3, i4⟩ := merge_arcs u1 u2 v1 v2 (d := d) (k := k) (hd2.trans (by omega))
  have hconn := joinRep_eq rep huv (Or.inl ⟨rfl, rfl⟩)
  have hrep : ∀ w ∈ ns, (rep w = rep v ∨ rep w = rep u) ∨ (rep w ≠ rep v ∧ rep w ≠ rep u) := fun w _ => by tauto
  have rru := H.idem u hu
  have rrv := H.idem v hv
  -- every node has its lift in the new arc
  have hlift : ∀ w ∈ ns, ∃ z, P ∣ z - x w ∧
      Function.update a (rep u) a' (joinRep rep (rep u) (rep v) w) + m w ≤ z ∧
      z + m w ≤ Function.update a (rep u) a' (joinRep rep (rep u) (rep v) w) +
        Function.update L (rep u) L' (joinRep rep (rep u) (rep v) w) := by
    intro w hw
    obtain ⟨z, h1, h2, h3⟩ := H.lift w hw
    unfold joinRep
    by_cases hc : rep w = rep v
    · rw [if_pos hc, Function.update_self, Function.update_self]
      refine ⟨z + (zu + d - zv), ?_, ?_, ?_⟩
      · have := Int.dvd_add h1 hd1; convert this using 1; ring
      · rw [hc] at h2; omega
      · rw [hc] at h3; omega
    · rw [if_neg hc]
      by_cases hc' : rep w = rep u
      · rw [hc', Function.update_self, Function.update_self]
        rw [hc'] at h2 h3
        exact ⟨z, h1, by omega, by omega⟩
      · rw [Function.update_of_ne hc', Function.update_of_ne hc']
        exact ⟨z, h1, h2, h3⟩
  refine ⟨joinRep rep (rep u) (rep v), Function.update a (rep u) a', Function.update L (rep u) L', ⟨?_, ?_, ?_, ?_, hlift, ?_, ?_⟩,
    fun p q hpq => by unfold joinRep; rw [hpq]⟩
  · intro w hw
    unfold joinRep
    split_ifs
    · exact H.mem u hu
    · exact H.mem w hw
  · intro w hw
    unfold joinRep
    by_cases hc : rep w = rep v
    · rw [if_pos hc, rru, if_neg huv]
    · rw [if_neg hc, H.idem w hw, if_neg hc]
  · intro p hp q hq
    rw [hconn, H.conn p hp q hq, H.conn p hp u hu, H.conn q hq v hv, H.conn p hp v hv, H.conn q hq u hu]
    have hmono : ∀ {p q}, Conn D p q → Conn (s(u, v) :: D) p q := fun h => h.mono fun _ h => List.mem_cons_of_mem _ h
    constructor
    · have hedge : Conn (s(u, v) :: D) u v := Conn.edge (by simp)
      rintro (h | ⟨h1, h2⟩ | ⟨h1, h2⟩)
      · exact hmono h
      · exact (hmono h1).trans (hedge.trans (hmono h2.symm))
      · exact (hmono h1).trans (hedge.symm.trans (hmono h2.symm))
    · intro hc
      rcases Conn.cons hc with h | ⟨h1, h2⟩ | ⟨h1, h2⟩
      · exact Or.inl h
      · exact Or.inr (Or.inl ⟨h1, h2.symm⟩)
      · exact Or.inr (Or.inr ⟨h1, h2.symm⟩)
  · intro w hw
    by_cases hc : w = rep u
    · rw [hc, Function.update_self]; exact hL0
    · rw [Function.update_of_ne hc]; exact H.nonneg w hw
  · intro p q hpq hj y0 hy
    by_cases hee : s(p, q) = s(u, v)
    · -- the new edge is inside
      rw [hee] at hy
      have hp : rep p = rep u ∨ rep p = rep v := by
        rcases Sym2.eq_iff.1 hee with ⟨rfl, rfl⟩ | ⟨rfl, rfl⟩
        · exact Or.inl rfl
        · exact Or.inr rfl
      have hjp : joinRep rep (rep u) (rep v) p = rep u := by
        unfold joinRep
        rcases hp with h | h <;> simp [h, huv]
      rw [hjp, Function.update_self, Function.update_self]
      obtain ⟨z, hz, hz'⟩ := hd3 y0 hy
      have := hl2 _ hpq
      refine Or.inr ⟨z, hz, ?_, ?_⟩
      · omega
      · omega
    · by_cases hr : rep p = rep q
      · have h1 := H.edge p q hpq hr y0 hy
        have hle := hsame _ hpq hee
        unfold joinRep
        by_cases hc : rep p = rep v
        · rw [if_pos hc, Function.update_self, Function.update_self]
          rw [hc] at h1
          exact h1.mono hle hd1 i3 i4
        · rw [if_neg hc]
          by_cases hc' : rep p = rep u
          · rw [hc', Function.update_self, Function.update_self]
            rw [hc'] at h1
            exact h1.mono hle (dvd_zero P) (by omega) (by omega)
          · rw [Function.update_of_ne hc', Function.update_of_ne hc']
            exact h1.mono hle (dvd_zero P) (by omega) (by omega)
      · obtain ⟨zp, dp, p1, p2⟩ := hlift p (A.left p q hpq)
        obtain ⟨zq, dq, q1, q2⟩ := hlift q (A.right hpq)
        rw [← hj] at q1 q2
        have hs := A.step p q hpq
        rw [hy] at hs
        exact edgeIn_of A.nonneg hs dp dq p1 p2 q1 q2 (hbet p q hpq hee hr) (hl2 _ hpq)
  · have hfil : ns.filter (fun r => joinRep rep (rep u) (rep v) r = r) = (ns.filter fun r => rep r = r).erase (rep v) := by
      ext r
      simp only [Finset.mem_filter, Finset.mem_erase]
      unfold joinRep
      constructor
      · rintro ⟨h1, h2⟩
        split_ifs at h2 with hc
        · subst h2; rw [rru] at hc; exact absurd hc huv
        · exact ⟨fun hc' => hc (by rw [hc', rrv]), h1, h2⟩
      · rintro ⟨h1, h2, h3⟩
        refine ⟨h2, ?_⟩
        rw [if_neg (by rw [h3]; exact h1), h3]
    have mu : rep u ∈ (ns.filter fun r => rep r = r).erase (rep v) := by simp [huv, rru, H.mem u hu]
    have mv : rep v ∈ ns.filter fun r => rep r = r := by simp [rrv, H.mem v hv]
    have hsum := H.sum
    rw [← Finset.add_sum_erase _ _ mv, ← Finset.add_sum_erase _ _ mu] at hsum
    rw [hfil, ← Finset.add_sum_erase _ _ mu, Function.update_self]
    have : ∑ r ∈ ((ns.filter fun r => rep r = r).erase (rep v)).erase (rep u), Function.update L (rep u) L' r =
        ∑ r ∈ ((ns.filter fun r => rep r = r).erase (rep v)).erase (rep u), L r :=
      Finset.sum_congr rfl fun r hr => Function.update_of_ne (Finset.ne_of_mem_erase hr) _ _
    rw [this]
    linarith

/-- Joining clusters by several edges at no cost. -/
theorem Arcs.merges (A : Axis P x y ns Es) (hl2 : ∀ e ∈ Es, lv e ≤ 2) (fl : List (Sym2 N)) :
    ∀ {D : List (Sym2 N)} {rep : N → N} {a L : N → ℤ}, Arcs P x y ns Es D lv m B rep a L →
    (∀ p q, s(p, q) ∈ Es → rep p ≠ rep q → lv s(p, q) ≤ m p + m q) →
    (∀ p q, s(p, q) ∈ fl → s(p, q) ∈ Es ∧ 2 ≤ m p + m q) →
    ∃ D' rep' a' L', (∀ k, k ∈ D' ↔ k ∈ D ∨ k ∈ fl) ∧ Arcs P x y ns Es D' lv m B rep' a' L' := by
  induction fl with
  | nil => intro D rep a L H _ _; exact ⟨D, rep, a, L, by simp, H⟩
  | cons e fl ih =>
    intro D rep a L H hbet hfl
    induction e with
    | _ u v =>
    obtain ⟨he, hm⟩ := hfl u v (by simp)
    have hstep : ∃ rep1 a1 L1, Arcs P x y ns Es (s(u, v) :: D) lv m B rep1 a1 L1 ∧ ∀ p q, rep p = rep q → rep1 p = rep1 q := by
      by_cases huv : rep u = rep v
      · refine ⟨rep, a, L, ⟨H.mem, H.idem, fun p hp q hq => (H.conn p hp q hq).trans
          ⟨Conn.mono fun _ h => List.mem_cons_of_mem _ h, fun hc => ?_⟩, H.nonneg, H.lift, H.edge, H.sum⟩, fun _ _ h => h⟩
        have hcuv := (H.conn u (A.left u v he) v (A.right he)).1 huv
        rcases Conn.cons hc with h | ⟨h1, h2⟩ | ⟨h1, h2⟩
        · exact h
        · exact h1.trans (hcuv.trans h2)
        · exact h1.trans (hcuv.symm.trans h2)
      · have := H.merge A he huv hl2 (fun _ _ _ => le_rfl) (fun p q h _ => hbet p q h) 0 (by omega)
        simpa using this
    obtain ⟨rep1, a1, L1, H1, hr1⟩ := hstep
    obtain ⟨D', rep', a', L', hD, H'⟩ := ih H1 (fun p q h hne => hbet p q h fun hc => hne (hr1 p q hc))
      (fun p q h => hfl p q (by simp [h]))
    refine ⟨D', rep', a', L', fun k => ?_, H'⟩
    rw [hD, List.mem_cons, List.mem_cons]
    tauto

/-- Some clusters grow on all sides. -/
theorem Arcs.grow (A : Axis P x y ns Es) (H : Arcs P x y ns Es D lv m B rep a L) (G : N → Prop) [DecidablePred G]
    (hG : ∀ u ∈ ns, (G u ↔ G (rep u))) {lv' : Sym2 N → ℕ} (hl2 : ∀ e ∈ Es, lv' e ≤ 2)
    (hsame : ∀ u v, s(u, v) ∈ Es → rep u = rep v → ¬ G u → lv' s(u, v) ≤ lv s(u, v)) :
    ∃ a' L', Arcs P x y ns Es D lv' (fun u => m u + if G u then 1 else 0)
      (B + 2 * ((ns.filter fun r => rep r = r ∧ G r).card : ℤ)) rep a' L' := by
  have hlift : ∀ w ∈ ns, ∃ z, P ∣ z - x w ∧
      (a (rep w) - if G (rep w) then 1 else 0) + ((m w + if G w then 1 else 0 : ℕ) : ℤ) ≤ z ∧
      z + ((m w + if G w then 1 else 0 : ℕ) : ℤ) ≤ (a (rep w) - if G (rep w) then 1 else 0) +
        (L (rep w) + if G (rep w) then 2 else 0) := by
    intro w hw
    obtain ⟨z, h1, h2, h3⟩ := H.lift w hw
    refine ⟨z, h1, ?_, ?_⟩
    · by_cases hc : G w
      · rw [if_pos hc, if_pos ((hG w hw).1 hc)]; push_cast; omega
      · rw [if_neg hc, if_neg (fun h => hc ((hG w hw).2 h))]; push_cast; omega
    · by_cases hc : G w
      · rw [if_pos hc, if_pos ((hG w hw).1 hc), if_pos ((hG w hw).1 hc)]; push_cast; omega
      · rw [if_neg hc, if_neg (fun h => hc ((hG w hw).2 h)), if_neg (fun h => hc ((hG w hw).2 h))]; push_cast; omega
  refine ⟨fun r => a r - if G r then 1 else 0, fun r => L r + if G r then 2 else 0, H.mem, H.idem, H.conn, ?_, hlift, ?_, ?_⟩
  · intro u hu
    have := H.nonneg u hu
    split_ifs <;> omega
  · intro u v he hr y0 hy
    have hu := A.left u v he
    by_cases hc : G u
    · obtain ⟨zp, dp, p1, p2⟩ := hlift u hu
      obtain ⟨zq, dq, q1, q2⟩ := hlift v (A.right he)
      rw [← hr] at q1 q2
      have hs := A.step u v he
      rw [hy] at hs
      have hcv : G v := (hG v (A.right he)).2 (hr ▸ (hG u hu).1 hc)
      refine edgeIn_of A.nonneg hs dp dq p1 p2 q1 q2 ?_ (hl2 _ he)
      have := hl2 _ he
      rw [if_pos hc, if_pos hcv]
      omega
    · have hc' : ¬ G (rep u) := fun h => hc ((hG u hu).2 h)
      simp only [if_neg hc']
      exact (H.edge u v he hr y0 hy).mono (hsame u v he hr hc) (dvd_zero P) (by omega) (by omega)
  · rw [Finset.sum_add_distrib, ← Finset.sum_filter, Finset.filter_filter, Finset.sum_const, nsmul_eq_mul]
    have := H.sum
    linarith

theorem Arcs.addIn (A : Axis P x y ns Es) (H : Arcs P x y ns Es D lv m B rep a L) {u v : N} (he : s(u, v) ∈ Es)
    (huv : rep u = rep v) : Arcs P x y ns Es (s(u, v) :: D) lv m B rep a L := by
  refine ⟨H.mem, H.idem, fun p hp q hq => (H.conn p hp q hq).trans
    ⟨Conn.mono fun _ h => List.mem_cons_of_mem _ h, fun hc => ?_⟩, H.nonneg, H.lift, H.edge, H.sum⟩
  have hcuv := (H.conn u (A.left u v he) v (A.right he)).1 huv
  rcases Conn.cons hc with h | ⟨h1, h2⟩ | ⟨h1, h2⟩
  · exact h
  · exact h1.trans (hcuv.trans h2)
  · exact h1.trans (hcuv.symm.trans h2)

/-- The clusters of the erased edges: two units for every erased edge. -/
theorem Arcs.init (A : Axis P x y ns Es) (S : List (Sym2 N)) (hS : ∀ e ∈ S, e ∈ Es) :
    ∃ rep a L, Arcs P x y ns Es S (fun e => if e ∈ S then 2 else 0) (fun _ => 0) (2 * S.length) rep a L := by
  induction S with
  | nil =>
    refine ⟨id, x, fun _ => 0, fun u hu => hu, fun _ _ => rfl, fun u _ v _ => ⟨fun h => ?_, Conn.nil⟩, fun _ _ => le_rfl,
      fun u _ => ⟨x u, by simp, by simp, by simp⟩, fun u v he hr y0 hy => ?_, by simp⟩
    · simp only [id] at h; rw [h]; exact Conn.refl _ _
    · simp only [id] at hr
      subst hr
      have hs := A.step _ _ he
      rw [hy] at hs
      refine edgeIn_of (mu := 0) (mv := 0) A.nonneg hs (zu := x u) (zv := x u) (by simp) (by simp) ?_ ?_ ?_ ?_ ?_ ?_ <;> simp
  | cons e S ih =>
    obtain ⟨rep, a, L, H⟩ := ih fun e he => hS e (by simp [he])
    induction e with
    | _ u v =>
    have he := hS s(u, v) (by simp)
    have hl2 : ∀ f ∈ Es, (if f ∈ s(u, v) :: S then 2 else 0) ≤ 2 := fun f _ => by split_ifs <;> omega
    by_cases huv : rep u = rep v
    · classical
      obtain ⟨a', L', H'⟩ := H.grow A (fun w => rep w = rep u) (fun w hw => by rw [H.idem w hw])
        (lv' := fun f => if f ∈ s(u, v) :: S then 2 else 0) hl2 (fun p q hpq hr hp => by
          have : s(p, q) ≠ s(u, v) := by
            intro hc
            rcases Sym2.eq_iff.1 hc with ⟨rfl, rfl⟩ | ⟨rfl, rfl⟩
            · exact hp rfl
            · exact hp huv.symm
          simp only [List.mem_cons, this, false_or]
          exact le_rfl)
      refine ⟨rep, a', L', (H'.addIn A he huv).weaken (fun _ _ => Nat.zero_le _) ?_ (fun _ => Iff.rfl) fun _ _ => le_rfl⟩
      have : (ns.filter fun r => rep r = r ∧ rep r = rep u).card ≤ 1 := by
        refine (Finset.card_le_card (t := {rep u}) fun r hr => ?_).trans (by simp)
        simp only [Finset.mem_filter] at hr
        rw [Finset.mem_singleton, ← hr.2.1, hr.2.2]
      rw [List.length_cons]
      push_cast
      omega
    · obtain ⟨rep', a', L', H', _⟩ := H.merge A he huv (lv' := fun f => if f ∈ s(u, v) :: S then 2 else 0) hl2
        (fun f _ hf => by simp only [List.mem_cons, hf, false_or]; exact le_rfl) (fun p q hpq hf hr => by
          have : s(p, q) ∉ S := fun hc =>
            hr ((H.conn p (A.left p q hpq) q (A.right hpq)).2 (Conn.edge hc))
          simp [hf, this]) 2 (by simp)
      refine ⟨rep', a', L', H'.weaken (fun _ _ => le_rfl) ?_ (fun _ => Iff.rfl) fun _ _ => le_rfl⟩
      rw [List.length_cons]
      push_cast
      omega

/-- How many sheets the clusters meet. -/
theorem Arcs.sheets (H : Arcs P x y ns Es D lv m B rep a L) (T : Finset ℤ) (hT : ∀ t ∈ T, ∃ u v, s(u, v) ∈ Es ∧
      u ∈ ns ∧ rep u = rep v ∧ lv s(u, v) = 2 ∧ y s(u, v) = some t) {ε : ℤ} (hpar : ∀ t ∈ T, t % 2 = ε) (hP2 : 2 ∣ P)
    (hinc : ∀ t ∈ T, ∀ t' ∈ T, P ∣ t - t' → t = t') (hcard : 0 < P → 2 * (T.card : ℤ) ≤ P) : 2 * (T.card : ℤ) ≤ B := by
  have hnn : ∀ r ∈ ns.filter (fun r => rep r = r), 0 ≤ L r := fun r hr => H.nonneg r (Finset.mem_of_mem_filter r hr)
  by_cases hbig : ∃ r ∈ ns.filter (fun r => rep r = r), 0 < P ∧ P ≤ L r
  · obtain ⟨r, hr, h0, h1⟩ := hbig
    have := Finset.single_le_sum hnn hr
    have := H.sum
    have := hcard h0
    omega
  · push Not at hbig
    rcases T.eq_empty_or_nonempty with hTe | ⟨t0, ht0⟩
    · subst hTe
      have := H.sum
      have := Finset.sum_nonneg hnn
      simp only [Finset.card_empty, Nat.cast_zero, mul_zero]
      omega
    have : Nonempty N := ⟨(hT t0 ht0).choose⟩
    have key : ∀ t ∈ T, ∃ r z, r ∈ ns.filter (fun r => rep r = r) ∧ P ∣ z - t ∧ a r + 1 ≤ z ∧ z + 1 ≤ a r + L r := by
      intro t ht
      obtain ⟨u, v, he, hu, hr, hl, hy⟩ := hT t ht
      have hm : rep u ∈ ns.filter (fun r => rep r = r) := by simp [H.mem u hu, H.idem u hu]
      rcases H.edge u v he hr t hy with ⟨h1, h2⟩ | ⟨z, h1, h2, h3⟩
      · exact absurd h2 (not_le.2 (hbig _ hm h1))
      · rw [hl] at h2 h3
        refine ⟨rep u, z, hm, h1, ?_, ?_⟩ <;> push_cast at h2 h3 <;> omega
    choose! r z hrz using key
    have hmaps : ∀ t ∈ T, r t ∈ ns.filter (fun r => rep r = r) := fun t ht => (hrz t ht).1
    have hfib : ∀ q ∈ ns.filter (fun r => rep r = r), 2 * ((T.filter fun t => r t = q).card : ℤ) ≤ L q := by
      intro q hq
      have h1 : (T.filter fun t => r t = q).card ≤ (Finset.Ico 0 (L q / 2)).card := by
        refine Finset.card_le_card_of_injOn (fun t => (z t - a q - 1) / 2) ?_ ?_
        · intro t ht
          rw [Finset.mem_coe, Finset.mem_filter] at ht
          obtain ⟨_, _, h2, h3⟩ := hrz t ht.1
          rw [ht.2] at h2 h3
          simp only [Finset.coe_Ico, Set.mem_Ico]
          omega
        · intro t ht t' ht' heq
          rw [Finset.mem_coe, Finset.mem_filter] at ht ht'
          obtain ⟨_, d1, _, _⟩ := hrz t ht.1
          obtain ⟨_, d2, _, _⟩ := hrz t' ht'.1
          have p1 := hpar t ht.1
          have p2 := hpar t' ht'.1
          have e1 := hP2.trans d1
          have e2 := hP2.trans d2
          simp only at heq
          have hz : z t = z t' := by omega
          refine hinc t ht.1 t' ht'.1 ?_
          have := Int.dvd_sub d2 d1
          rw [hz] at this
          convert this using 1; ring
      rw [Int.card_Ico] at h1
      have := hnn q hq
      omega
    have hc := Finset.card_eq_sum_card_fiberwise hmaps
    rw [hc]
    push_cast
    rw [Finset.mul_sum]
    exact (Finset.sum_le_sum hfib).trans H.sum

end Flamingpy.UnionFind
