import Verif.Proofs.UfArc

/-!
# The growth rounds, abstractly

`c u` is how far (in half edges, 0 or 1) the cluster of `u` has grown into the edges leaving it.
-/

namespace Flamingpy.UnionFind

variable {N : Type} [DecidableEq N]

/-- The levels of the edges between clusters are given by the frontiers of the two clusters. -/
structure Ghost (ns : Finset N) (Es : Finset (Sym2 N)) (D : List (Sym2 N)) (lv : Sym2 N → ℕ) (c : N → ℕ) : Prop where
  grown : ∀ e, e ∈ D ↔ e ∈ Es ∧ lv e = 2
  le2 : ∀ e ∈ Es, lv e ≤ 2
  le1 : ∀ u, c u ≤ 1
  between : ∀ u v, s(u, v) ∈ Es → ¬ Conn D u v → lv s(u, v) = c u + c v
  low : ∀ u v, s(u, v) ∈ Es → c u ≤ lv s(u, v)
  const : ∀ u v, Conn D u v → c u = c v

variable {P : ℤ} {x : N → ℤ} {y : Sym2 N → Option ℤ} {ns : Finset N} {Es : Finset (Sym2 N)} {D D' : List (Sym2 N)}
  {lv lv' : Sym2 N → ℕ} {c : N → ℕ} {B : ℤ} {rep : N → N} {a L : N → ℤ}

/-- One round. -/
theorem Ghost.round (A : Axis P x y ns Es) (hloop : ∀ u, s(u, u) ∉ Es) (K : Ghost ns Es D lv c) (H : Arcs P x y ns Es D lv c B rep a L)
    (r : ℕ) (G : N → Prop) [DecidablePred G] (hG : ∀ u v, Conn D u v → G u → G v) (hGc : ∀ u, G u → c u = r % 2)
    (hlv' : ∀ u v, s(u, v) ∈ Es → lv' s(u, v) = min 2 (lv s(u, v) + ((if G u then 1 else 0) + if G v then 1 else 0)))
    (hD' : ∀ e, e ∈ D' ↔ e ∈ Es ∧ lv' e = 2) {F Fb : Finset (Sym2 N)} (hFE : F ⊆ Es) (hFb : ∀ e ∈ Fb, e ∈ D)
    (hF : ∀ u ∈ ns, G u → (∃ p q, s(p, q) ∈ F ∧ Conn D u p ∧ ¬ Conn D u q) ∨ ∃ p q, s(p, q) ∈ Fb ∧ Conn D u p) :
    ∃ rep' a' L', Arcs P x y ns Es D' lv' (fun u => (c u + if G u then 1 else 0) % 2)
        (B + 2 * ((∑ e ∈ F, ((lv' e : ℤ) - lv e)) + Fb.card)) rep' a' L' ∧
      Ghost ns Es D' lv' (fun u => (c u + if G u then 1 else 0) % 2) ∧
      ∀ u v, G u → Conn D' u v → (c v + if G v then 1 else 0) % 2 = (r + 1) % 2 := by
  have hsub : ∀ e ∈ D, e ∈ D' := by
    intro e he
    induction e with
    | _ u v =>
    obtain ⟨h1, h2⟩ := (K.grown _).1 he
    refine (hD' _).2 ⟨h1, ?_⟩
    rw [hlv' u v h1, h2]
    omega
  have hl2 : ∀ e ∈ Es, lv' e ≤ 2 := by
    intro e he
    induction e with
    | _ u v => rw [hlv' u v he]; exact min_le_left _ _
  have hGr : ∀ u ∈ ns, (G u ↔ G (rep u)) := by
    intro u hu
    have hc : Conn D u (rep u) := (H.conn u hu _ (H.mem u hu)).1 (H.idem u hu).symm
    exact ⟨hG _ _ hc, hG _ _ hc.symm⟩
  -- a newly grown edge between clusters
  have hnew : ∀ u v, s(u, v) ∈ D' → Conn D u v ∨
      ((c u + if G u then 1 else 0) + (c v + if G v then 1 else 0) = 2 ∧ (G u ∨ G v)) := by
    intro u v he
    by_cases hc : Conn D u v
    · exact Or.inl hc
    · obtain ⟨h1, h2⟩ := (hD' _).1 he
      have h3 := K.between u v h1 hc
      have h4 : lv s(u, v) ≠ 2 := fun h => hc (Conn.edge ((K.grown _).2 ⟨h1, h⟩))
      have h5 := K.le2 _ h1
      rw [hlv' u v h1, h3] at h2
      rw [h3] at h4 h5
      right
      by_cases gu : G u <;> by_cases gv : G v <;> simp only [gu, gv, if_true, if_false] at h2 ⊢
      · have := hGc u gu
        have := hGc v gv
        refine ⟨by omega, by simp⟩
      · exact ⟨by omega, by simp⟩
      · exact ⟨by omega, by simp⟩
      · omega
  have hconst' : ∀ u v, s(u, v) ∈ D' → (c u + if G u then 1 else 0) % 2 = (c v + if G v then 1 else 0) % 2 := by
    intro u v he
    rcases hnew u v he with h | ⟨h, _⟩
    · rw [K.const u v h]
      by_cases gu : G u
      · rw [if_pos gu, if_pos (hG _ _ h gu)]
      · rw [if_neg gu, if_neg (fun gv => gu (hG _ _ h.symm gv))]
    · omega
  have hconst : ∀ u v, Conn D' u v → (c u + if G u then 1 else 0) % 2 = (c v + if G v then 1 else 0) % 2 := by
    intro u v h
    induction h with
    | refl => rfl
    | tail _ hb ih => exact ih.trans (hconst' _ _ hb)
  -- the arcs
  obtain ⟨a1, L1, H1⟩ := H.grow A G hGr (lv' := lv') hl2 (fun u v he hr hg => by
    have hgv : ¬ G v := fun gv => hg ((hGr u (A.left u v he)).2 (hr ▸ (hGr v (A.right he)).1 gv))
    rw [hlv' u v he, if_neg hg, if_neg hgv]
    have := K.le2 _ he
    omega)
  have hbet1 : ∀ p q, s(p, q) ∈ Es → rep p ≠ rep q →
      lv' s(p, q) ≤ (c p + if G p then 1 else 0) + (c q + if G q then 1 else 0) := by
    intro p q he hr
    have hc : ¬ Conn D p q := fun h => hr ((H.conn p (A.left p q he) q (A.right he)).2 h)
    rw [hlv' p q he, K.between p q he hc]
    omega
  obtain ⟨D1, rep', a', L', hD1, H2⟩ := H1.merges A hl2
    (((Es.filter fun e => lv' e = 2 ∧ e ∉ D)).toList) hbet1 (fun p q he => by
      simp only [Finset.mem_toList, Finset.mem_filter] at he
      refine ⟨he.1, ?_⟩
      rcases hnew p q ((hD' _).2 ⟨he.1, he.2.1⟩) with h | ⟨h, _⟩
      · have hlt : lv s(p, q) < 2 := by
          have := K.le2 _ he.1
          have : lv s(p, q) ≠ 2 := fun h => he.2.2 ((K.grown _).2 ⟨he.1, h⟩)
          omega
        have h2 := he.2.1
        rw [hlv' p q he.1] at h2
        by_cases gu : G p
        · rw [if_pos gu, if_pos (hG _ _ h gu)]; omega
        · have gq : ¬ G q := fun gv => gu (hG _ _ h.symm gv)
          rw [if_neg gu, if_neg gq] at h2
          omega
      · exact h.ge)
  have hDD : ∀ k, k ∈ D1 ↔ k ∈ D' := by
    intro k
    rw [hD1]
    simp only [Finset.mem_toList, Finset.mem_filter]
    constructor
    · rintro (h | h)
      · exact hsub k h
      · exact (hD' k).2 ⟨h.1, h.2.1⟩
    · intro h
      by_cases hk : k ∈ D
      · exact Or.inl hk
      · exact Or.inr ⟨((hD' k).1 h).1, ((hD' k).1 h).2, hk⟩
  -- the number of growing clusters
  have hcount : ((ns.filter fun r => rep r = r ∧ G r).card : ℤ) ≤ (∑ e ∈ F, ((lv' e : ℤ) - lv e)) + Fb.card := by
    -- incidence of clusters and edges
    classical
    have hone : ∀ q ∈ ns.filter (fun r => rep r = r ∧ G r), (1 : ℤ) ≤
        (∑ e ∈ F, if (∃ p q', e = s(p, q') ∧ Conn D q p ∧ ¬ Conn D q q') then (1 : ℤ) else 0) +
        ∑ e ∈ Fb, if (∃ p q', e = s(p, q') ∧ Conn D q p) then (1 : ℤ) else 0 := by
      intro q hq
      rw [Finset.mem_filter] at hq
      have n1 : (0 : ℤ) ≤ ∑ e ∈ F, if (∃ p q', e = s(p, q') ∧ Conn D q p ∧ ¬ Conn D q q') then (1 : ℤ) else 0 :=
        Finset.sum_nonneg fun _ _ => by split_ifs <;> simp
      have n2 : (0 : ℤ) ≤ ∑ e ∈ Fb, if (∃ p q', e = s(p, q') ∧ Conn D q p) then (1 : ℤ) else 0 :=
        Finset.sum_nonneg fun _ _ => by split_ifs <;> simp
      rcases hF q hq.1 hq.2.2 with ⟨p, p', he, h1, h2⟩ | ⟨p, p', he, h1⟩
      · have := Finset.single_le_sum (f := fun e => if (∃ p q', e = s(p, q') ∧ Conn D q p ∧ ¬ Conn D q q') then (1 : ℤ) else 0)
          (fun _ _ => by split_ifs <;> simp) he
        rw [if_pos ⟨p, p', rfl, h1, h2⟩] at this
        omega
      · have := Finset.single_le_sum (f := fun e => if (∃ p q', e = s(p, q') ∧ Conn D q p) then (1 : ℤ) else 0)
          (fun _ _ => by split_ifs <;> simp) he
        rw [if_pos ⟨p, p', rfl, h1⟩] at this
        omega
    have hsum := Finset.sum_le_sum hone
    rw [Finset.sum_const, nsmul_eq_mul, mul_one, Finset.sum_add_distrib, Finset.sum_comm,
      Finset.sum_comm (t := Fb)] at hsum
    refine hsum.trans (add_le_add (Finset.sum_le_sum fun e he => ?_) ?_)
    · -- an edge of F
      induction e with
      | _ u v =>
      have heE := hFE he
      have hu := A.left u v heE
      have hv := A.right heE
      rw [← Finset.sum_filter, Finset.sum_const, nsmul_eq_mul, mul_one]
      by_cases hc : Conn D u v
      · have hz : ((ns.filter fun r => rep r = r ∧ G r).filter fun q => ∃ p q', s(u, v) = s(p, q') ∧ Conn D q p ∧ ¬ Conn D q q') = ∅ := by
          refine Finset.filter_eq_empty_iff.2 fun q _ => ?_
          rintro ⟨p, p', he', h1, h2⟩
          rcases Sym2.eq_iff.1 he' with ⟨rfl, rfl⟩ | ⟨rfl, rfl⟩
          · exact h2 (h1.trans hc)
          · exact h2 (h1.trans hc.symm)
        rw [hz, hlv' u v heE]
        have := K.le2 _ heE
        simp only [Finset.card_empty]
        omega
      · have hlev : lv' s(u, v) = lv s(u, v) + ((if G u then 1 else 0) + if G v then 1 else 0) := by
          rw [hlv' u v heE]
          have h3 := K.between u v heE hc
          have h4 : lv s(u, v) ≠ 2 := fun h => hc (Conn.edge ((K.grown _).2 ⟨heE, h⟩))
          have h5 := K.le2 _ heE
          rw [h3] at h4 h5 ⊢
          by_cases gu : G u <;> by_cases gv : G v <;> simp only [gu, gv, if_true, if_false]
          · have := hGc u gu
            have := hGc v gv
            omega
          · omega
          · omega
          · omega
        have hcard : ((ns.filter fun r => rep r = r ∧ G r).filter fun q => ∃ p q', s(u, v) = s(p, q') ∧ Conn D q p ∧ ¬ Conn D q q').card ≤
            (if G u then 1 else 0) + if G v then 1 else 0 := by
          have hs : ((ns.filter fun r => rep r = r ∧ G r).filter fun q => ∃ p q', s(u, v) = s(p, q') ∧ Conn D q p ∧ ¬ Conn D q q') ⊆
              (if G u then {rep u} else ∅) ∪ (if G v then {rep v} else ∅) := by
            intro q hq
            simp only [Finset.mem_filter] at hq
            obtain ⟨⟨hqn, hqr, hqG⟩, p, p', he', h1, _⟩ := hq
            rw [Finset.mem_union]
            rcases Sym2.eq_iff.1 he' with ⟨rfl, rfl⟩ | ⟨rfl, rfl⟩
            · left
              rw [if_pos (hG _ _ h1 hqG), Finset.mem_singleton, ← hqr]
              exact (H.conn q hqn u hu).2 h1
            · right
              rw [if_pos (hG _ _ h1 hqG), Finset.mem_singleton, ← hqr]
              exact (H.conn q hqn v hv).2 h1
          refine (Finset.card_le_card hs).trans ((Finset.card_union_le _ _).trans (Nat.add_le_add ?_ ?_)) <;>
            split_ifs <;> simp
        rw [hlev]
        push_cast
        have : ((((ns.filter fun r => rep r = r ∧ G r).filter fun q => ∃ p q', s(u, v) = s(p, q') ∧ Conn D q p ∧ ¬ Conn D q q').card : ℕ) : ℤ) ≤
            (((if G u then 1 else 0) + if G v then 1 else 0 : ℕ) : ℤ) := by exact_mod_cast hcard
        push_cast at this
        linarith
    · rw [Finset.card_eq_sum_ones]
      push_cast
      refine Finset.sum_le_sum fun e he => ?_
      induction e with
      | _ u v =>
      have heD := hFb _ he
      have heE := ((K.grown _).1 heD).1
      rw [← Finset.sum_filter, Finset.sum_const, nsmul_eq_mul, mul_one]
      have hcard : ((ns.filter fun r => rep r = r ∧ G r).filter fun q => ∃ p q', s(u, v) = s(p, q') ∧ Conn D q p).card ≤ 1 := by
        refine (Finset.card_le_card (t := {rep u}) fun q hq => ?_).trans (by simp)
        simp only [Finset.mem_filter] at hq
        obtain ⟨⟨hqn, hqr, _⟩, p, p', he', h1⟩ := hq
        rw [Finset.mem_singleton, ← hqr]
        refine (H.conn q hqn u (A.left u v heE)).2 ?_
        rcases Sym2.eq_iff.1 he' with ⟨rfl, rfl⟩ | ⟨rfl, rfl⟩
        · exact h1
        · exact h1.trans (Conn.edge heD).symm
      exact_mod_cast hcard
  refine ⟨rep', a', L', H2.weaken (fun u _ => Nat.mod_le _ _) ?_ hDD (fun _ _ => le_rfl), ?_, ?_⟩
  · linarith
  · refine ⟨hD', hl2, fun u => by omega, fun u v he hc => ?_, fun u v he => ?_, hconst⟩
    · have hcD : ¬ Conn D u v := fun h => hc (h.mono hsub)
      have h6 : lv' s(u, v) ≠ 2 := fun h => hc (Conn.edge ((hD' _).2 ⟨he, h⟩))
      have lu := K.low u v he
      have lw := K.low v u (by rwa [Sym2.eq_swap])
      rw [Sym2.eq_swap] at lw
      have cu := K.le1 u
      have cv := K.le1 v
      have h3 := K.between u v he hcD
      have h7 := hlv' u v he
      by_cases gu : G u <;> by_cases gv : G v <;> simp only [gu, gv, if_true, if_false] at h7 ⊢ <;> omega
    · have lu := K.low u v he
      have cu := K.le1 u
      have h7 := hlv' u v he
      by_cases gu : G u <;> by_cases gv : G v <;> simp only [gu, gv, if_true, if_false] at h7 ⊢ <;> omega
  · intro u v gu h
    rw [← hconst u v h, if_pos gu, hGc u gu]
    omega

end Flamingpy.UnionFind
