import Verif.Proofs.StabEdges

/-!
# Two stabilizers share at most one qubit unless a periodic axis has size two
-/

namespace Flamingpy.SurfaceCode

open Flamingpy

theorem nextTo_unique {bd : Bd} {d : ℕ} (hd : bd = .periodic → 3 ≤ d) {a a' b b' : ℤ} (hb : b ≠ b')
    (ha1 : inAxis bd d a) (ha2 : inAxis bd d a') (hb1 : inAxis bd d b) (hb2 : inAxis bd d b')
    (h1 : nextTo bd d a b) (h2 : nextTo bd d a b') (h3 : nextTo bd d a' b) (h4 : nextTo bd d a' b') : a = a' := by
  cases bd <;> simp only [nextTo, inAxis, reduceCtorEq, false_and, or_false, true_and, false_imp_iff, true_imp_iff] at *
  · omega
  · omega
  · omega

theorem adjacent_unique {dims : Fin 3 → ℕ} {bds : Fin 3 → Bd} (hd : ∀ i, bds i = .periodic → 3 ≤ dims i)
    {x y c c' : V} (hc : c ≠ c') (hx : inBox dims bds x) (hy : inBox dims bds y) (hcb : inBox dims bds c)
    (hcb' : inBox dims bds c') (hpar : ∀ i, c i % 2 = c' i % 2)
    (h1 : adjacent dims bds x c) (h2 : adjacent dims bds x c') (h3 : adjacent dims bds y c)
    (h4 : adjacent dims bds y c') : x = y := by
  -- the two cells lie on either side of the qubit along one axis
  have key : ∀ x, adjacent dims bds x c → adjacent dims bds x c' →
      ∃ i, nextTo (bds i) (dims i) (x i) (c i) ∧ nextTo (bds i) (dims i) (x i) (c' i) ∧
        (∀ j, j ≠ i → x j = c j) ∧ (∀ j, j ≠ i → c' j = c j) ∧ c i ≠ c' i := by
    rintro x ⟨i, hi, hi'⟩ ⟨j, hj, hj'⟩
    have hij : j = i := by
      by_contra hij
      have e1 : x j = c j := hi' j hij
      have := nextTo_parity hj
      have := hpar j
      omega
    subst hij
    have hr : ∀ k, k ≠ j → c' k = c k := fun k hk => by rw [← hj' k hk, hi' k hk]
    refine ⟨j, hi, hj, hi', hr, fun he => hc ?_⟩
    funext k
    by_cases hk : k = j
    · subst hk; exact he
    · exact (hr k hk).symm
  obtain ⟨i, a1, a2, a3, a4, a5⟩ := key x h1 h2
  obtain ⟨j, b1, b2, b3, b4, b5⟩ := key y h3 h4
  have hij : j = i := by
    by_contra hij
    exact b5 (a4 j hij).symm
  subst hij
  funext k
  by_cases hk : k = j
  · subst hk
    exact nextTo_unique (hd k) a5 (hx k) (hy k) (hcb k) (hcb' k) a1 a2 b1 b2
  · rw [a3 k hk, b3 k hk]

/-- Two different stabilizers share at most one qubit if every periodic axis has at least three cells. -/
theorem CodeOk.share_one {code : Code} (h : CodeOk code)
    (hd : ∀ i, boundsOf code.ec code.boundaries i = .periodic → 3 ≤ code.dims i) {i j : ℕ} (hij : i ≠ j) {x y : V}
    (h1 : x ∈ code.stabs.getD i []) (h2 : x ∈ code.stabs.getD j []) (h3 : y ∈ code.stabs.getD i [])
    (h4 : y ∈ code.stabs.getD j []) : x = y := by
  have hi := (mem_stabsOf.1 (mem_stabsOf'.2 h1)).1
  have hj := (mem_stabsOf.1 (mem_stabsOf'.2 h2)).1
  have hlen := h.stabs_length
  have hi' : i < (centers code.ec code.dims (boundsOf code.ec code.boundaries)).length := by omega
  have hj' : j < (centers code.ec code.dims (boundsOf code.ec code.boundaries)).length := by omega
  have si := (forall₂_getD h.stabs (fun _ => 0) [] hi').2
  have sj := (forall₂_getD h.stabs (fun _ => 0) [] hj').2
  rw [List.getD_eq_getElem _ _ hi'] at si
  rw [List.getD_eq_getElem _ _ hj'] at sj
  have hc : (centers code.ec code.dims (boundsOf code.ec code.boundaries))[i] ≠
      (centers code.ec code.dims (boundsOf code.ec code.boundaries))[j] := fun he =>
    hij ((List.Nodup.getElem_inj_iff (centers_nodup _ _ _)).1 he)
  have ci := mem_cells.1 (mem_centers_iff_cells.1 (List.getElem_mem hi'))
  have cj := mem_cells.1 (mem_centers_iff_cells.1 (List.getElem_mem hj'))
  exact adjacent_unique hd hc ((si x).1 h1).1 ((si y).1 h3).1 ci.1 cj.1 (fun k => by rw [ci.2 k, cj.2 k])
    ((si x).1 h1).2 ((sj x).1 h2).2 ((si y).1 h3).2 ((sj y).1 h4).2

end Flamingpy.SurfaceCode
