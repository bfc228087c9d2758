import Verif.Proofs.Trails
import Verif.Proofs.IidTrial

/-!
# A decoder of minimum weight fails only if half of a long trail is flipped
-/

namespace Flamingpy.Trial

open Flamingpy Flamingpy.SurfaceCode Flamingpy.UnionFind Flamingpy.Weights Flamingpy.Sim

/-- The numbers of the stabilizers that contain a qubit. -/
def stabsOf (code : Code) (x : V) : Finset ℕ := (Finset.range code.stabs.length).filter fun k => x ∈ code.stabs.getD k []

theorem mem_stabsOf {code : Code} {x : V} {k : ℕ} : k ∈ stabsOf code x ↔ x ∈ code.stabs.getD k [] := by
  unfold stabsOf
  rw [Finset.mem_filter, Finset.mem_range, and_iff_right_iff_imp]
  intro hx
  by_contra hc
  rw [List.getD_eq_default _ _ (by omega)] at hx
  simp at hx

theorem stabsOf_card {code : Code} (h : IsCode code) {x : V} (hx : x ∈ code.syndrome) : (stabsOf code x).card = 1 ∨ (stabsOf code x).card = 2 := by
  have hc : (stabsOf code x).card = code.stabs.countP fun s => decide (x ∈ s) := by
    have : ∀ l : List (List V), ((Finset.range l.length).filter fun k => x ∈ l.getD k []).card = l.countP fun s => decide (x ∈ s) := by
      intro l
      induction l using List.reverseRecOn with
      | nil => rfl
      | append_singleton l s ih =>
        rw [List.length_append, List.length_singleton, Finset.range_add_one, Finset.filter_insert, List.countP_append, List.countP_singleton, ← ih]
        have e1 : (l ++ [s]).getD l.length [] = s := by simp [List.getD]
        have e2 : ((Finset.range l.length).filter fun k => x ∈ (l ++ [s]).getD k []) = (Finset.range l.length).filter fun k => x ∈ l.getD k [] := by
          refine Finset.filter_congr fun k hk => ?_
          rw [List.getD_append _ _ _ _ (Finset.mem_range.1 hk)]
        rw [e1, e2]
        by_cases hs : x ∈ s
        · simp [hs]
        · simp [hs]
    exact this _
  rw [hc]
  rcases C25_checked_twice h hx with h | h
  · exact Or.inr h.2
  · exact Or.inl h.2

theorem stab_mem_syndrome {code : Code} (h : IsCode code) {k : ℕ} {x : V} (hx : x ∈ code.stabs.getD k []) : x ∈ code.syndrome := by
  by_cases hk : k < code.stabs.length
  · rw [List.getD_eq_getElem _ _ hk] at hx
    exact ((C25_only_syndrome h).2.1 _ (List.getElem_mem hk)).2 x hx
  · rw [List.getD_eq_default _ _ (by omega)] at hx
    simp at hx

theorem stab_length {code : Code} (h : IsCode code) (k : ℕ) : (code.stabs.getD k []).toFinset.card ≤ 6 := by
  by_cases hk : k < code.stabs.length
  · rw [List.getD_eq_getElem _ _ hk]
    obtain ⟨c, hc, hr⟩ := h.ok.1.stab_center (List.getElem_mem hk)
    have hcb := (mem_cells.1 hc).1
    have hsub : (code.stabs[k]).toFinset ⊆ (Finset.univ : Finset (Fin 3)).biUnion fun i =>
        (nb (boundsOf code.ec code.boundaries i) (code.dims i) (c i)).image fun f => Function.update c i f := by
      intro x hx
      rw [List.mem_toFinset, hr.2, adj_cell_iff hcb] at hx
      obtain ⟨i, f, hf, rfl⟩ := hx
      exact Finset.mem_biUnion.2 ⟨i, Finset.mem_univ _, Finset.mem_image.2 ⟨f, hf, rfl⟩⟩
    refine (Finset.card_le_card hsub).trans (Finset.card_biUnion_le.trans ?_)
    refine (Finset.sum_le_card_nsmul _ _ 2 fun i _ => Finset.card_image_le.trans ?_).trans (by simp)
    exact nb_card_le (hcb i) (le_trans (by norm_num) (h.ok.2 i))
  · rw [List.getD_eq_default _ _ (by omega)]
    simp

theorem bd_eq {code : Code} (h : IsCode code) (D : Finset V) (k : ℕ) :
    Trails.bd (stabsOf code) D k = b2z (parity (fun x => decide (x ∈ D)) (code.stabs.getD k [])) := by
  have hnd : (code.stabs.getD k []).Nodup := by
    by_cases hk : k < code.stabs.length
    · rw [List.getD_eq_getElem _ _ hk]
      exact ((C25_only_syndrome h).2.1 _ (List.getElem_mem hk)).1
    · rw [List.getD_eq_default _ _ (by omega)]
      simp
  rw [parity_eq, b2z_foldl_finset hnd (s := (code.stabs.getD k []).toFinset) (by simp)]
  unfold Trails.bd
  simp only [mem_stabsOf, b2z, decide_eq_true_eq]
  rw [← Finset.sum_filter, ← Finset.sum_filter]
  congr 1
  ext x
  simp [and_comm]

set_option maxHeartbeats 400000 in
/-- If the correction by a decoder of minimum weight fails there is a trail of qubits, at least as long as the code in a checked direction, on
which the flipped qubits weigh at least as much as the others. -/
theorem heavy_trail_w {code : Code} (h : IsCode code) (bk : Backend) (sp : SetPop) (paths : PathLib) (ml : MatchLib) {w : V → ℚ}
    (h0 : ∀ x ∈ code.syndrome, 0 ≤ w x) (hi : bk = .networkx ∨ ∀ x ∈ code.syndrome, ∃ n : ℤ, w x = n)
    (hpar' : ∀ i j, i ≠ j → ∀ x y, x ∈ code.stabs.getD i [] → x ∈ code.stabs.getD j [] →
      y ∈ code.stabs.getD i [] → y ∈ code.stabs.getD j [] → w x = w y) {B : Finset V} {r : (V → Bool) × Bool}
    (hcor : correct code (mwpmDecoder bk paths ml (stabGraph bk sp code) w) false (fun x => decide (x ∈ B)) = some r) (hr2 : r.2 = false) :
    ∃ x s L, s ∈ stabsOf code x ∧ (x :: L).Nodup ∧ (∀ y ∈ x :: L, y ∈ code.syndrome) ∧
      Trails.Run (stabsOf code) {s} L ∧ (∃ i ∈ planesToCheck code.ec code.boundaries, code.dims i ≤ (x :: L).length) ∧
      ∑ y ∈ (x :: L).toFinset \ B, w y ≤ ∑ y ∈ (x :: L).toFinset ∩ B, w y := by
  classical
  set bits : V → Bool := fun x => decide (x ∈ B) with hbits
  obtain ⟨R, g1, g2, g3, g4, g5⟩ := h.mwpm_minimal bk paths sp (w := w) h0 (pathLength_exact h bk sp hi) hpar' ml bits
  have hrec := recovery_nodup (PyDict.keys code.graph.nodes) R (fun q hq => h.syndrome_node (g3 q hq)) g2 bits
  set bits' : V → Bool := fun x => xor (bits x) (decide (x ∈ R)) with hb'
  have hck : checkCorrection code bits' false = some false := by
    unfold correct at hcor
    rw [g1, Option.bind_eq_bind, Option.bind_some, hrec, Option.bind_eq_bind, Option.bind_some] at hcor
    simp only [check_eq h.ok.2, Option.bind_eq_bind, Option.bind_some, Option.pure_def, Option.some.injEq] at hcor ⊢
    rw [← hr2, ← hcor]
  -- the residual error
  set C : Finset V := onesOf code bits' with hC
  have hCmem : ∀ x, x ∈ C ↔ x ∈ code.syndrome ∧ bits' x = true := fun x => mem_onesOf
  have hpar : ∀ {D : Finset V} {q : V → Bool} (k : ℕ), (∀ x ∈ code.syndrome, q x = decide (x ∈ D)) →
      parity q (code.stabs.getD k []) = parity (fun x => decide (x ∈ D)) (code.stabs.getD k []) := by
    intro D q k hq
    unfold parity
    congr 1
    exact List.map_congr_left fun x hx => hq x (stab_mem_syndrome h hx)
  have hCb : ∀ x ∈ code.syndrome, bits' x = decide (x ∈ C) := by
    intro x hx
    rw [Bool.eq_iff_iff, decide_eq_true_eq, hCmem]
    exact ⟨fun hh => ⟨hx, hh⟩, fun hh => hh.2⟩
  have htriv : ∀ k, Trails.bd (stabsOf code) C k = 0 := by
    intro k
    rw [bd_eq h, ← hpar k hCb, b2z_eq_zero]
    by_cases hk : k < code.stabs.length
    · rw [hb', parity_xor, g4 k hk, Bool.xor_self]
    · rw [List.getD_eq_default _ _ (by omega)]
      rfl
  -- the checked plane
  rw [check_eq h.ok.2, Option.some.injEq, List.all_eq_false] at hck
  obtain ⟨i, hi, hp⟩ := hck
  have hsheet : ∀ D : Finset V, (∀ x ∈ D, x ∈ code.syndrome) →
      b2z (sheetParity code (fun x => decide (x ∈ D)) i (lowF code.ec)) = ∑ x ∈ D, if x i = lowF code.ec then (1 : ZMod 2) else 0 := by
    intro D hD
    rw [h.ok.1.sheet, plane]
    simp only [b2z, decide_eq_true_eq]
    rw [← Finset.sum_filter, ← Finset.sum_filter]
    congr 1
    ext x
    simp only [Finset.mem_filter]
    constructor
    · rintro ⟨⟨h1, h2⟩, h3⟩; exact ⟨h3, h2⟩
    · rintro ⟨h1, h2⟩; exact ⟨⟨(h.ok.1.syndrome x).1 (hD x h1), h2⟩, h1⟩
  have hsheetC : sheetParity code bits' i (lowF code.ec) = sheetParity code (fun x => decide (x ∈ C)) i (lowF code.ec) := by
    rw [← b2z_inj, h.ok.1.sheet, h.ok.1.sheet, plane, plane]
    refine Finset.sum_congr rfl fun x hx => ?_
    rw [hCb x ((h.ok.1.syndrome x).2 (Finset.mem_filter.1 hx).1)]
  have hodd : ∑ x ∈ C, (if x i = lowF code.ec then (1 : ZMod 2) else 0) = 1 := by
    rw [← hsheet C fun x hx => ((hCmem x).1 hx).1, ← hsheetC]
    have : sheetParity code bits' i (lowF code.ec) = true := by simpa using hp
    rw [this]
    rfl
  obtain ⟨x, s, L, k1, k2, k3, k4, k5, k6⟩ := Trails.odd_trail (stabsOf code) (fun x => if x i = lowF code.ec then (1 : ZMod 2) else 0) C.card C
    le_rfl (fun x hx => stabsOf_card h ((hCmem x).1 hx).1) htriv hodd
  set T : Finset V := (x :: L).toFinset with hT
  have hTC : T ⊆ C := fun y hy => k3 y (List.mem_toFinset.1 hy)
  have hTs : ∀ y ∈ T, y ∈ code.syndrome := fun y hy => ((hCmem y).1 (hTC hy)).1
  have hTcard : T.card = (x :: L).length := List.toFinset_card_of_nodup k2
  have hTpar : ∀ k, parity (fun x => decide (x ∈ T)) (code.stabs.getD k []) = false := by
    intro k
    rw [← b2z_eq_zero, ← bd_eq h]
    exact k5 k
  refine ⟨x, s, L, k1, k2, fun y hy => ((hCmem y).1 (k3 y hy)).1, k4, ?_, ?_⟩
  · -- long
    have htT : trivialSyndrome code fun x => decide (x ∈ T) := by
      intro s hs
      obtain ⟨k, hk, rfl⟩ := List.getElem_of_mem hs
      have := hTpar k
      rwa [List.getD_eq_getElem _ _ hk] at this
    have hckT : checkCorrection code (fun x => decide (x ∈ T)) false = some false := by
      rw [check_eq h.ok.2, Option.some.injEq, List.all_eq_false]
      refine ⟨i, hi, ?_⟩
      have : b2z (sheetParity code (fun x => decide (x ∈ T)) i (lowF code.ec)) ≠ 0 := by
        rw [hsheet T hTs, k6]
        decide
      rw [b2z_ne_zero] at this
      simp [this]
    obtain ⟨j, hj, hle⟩ := C33_lower h htT hckT
    refine ⟨j, hj, hle.trans (le_of_eq ?_)⟩
    rw [← hTcard]
    unfold weight
    rw [List.countP_eq_length_filter, ← List.toFinset_card_of_nodup (h.ok.1.syndromeNd.filter _)]
    congr 1
    ext y
    simp only [List.mem_toFinset, List.mem_filter, decide_eq_true_eq, and_iff_right_iff_imp]
    exact hTs y
  · -- heavy
    set F : Finset V := R.toFinset with hF
    have hmin := g5 (fun y => xor (decide (y ∈ F)) (decide (y ∈ T))) (by
      intro k hk
      rw [parity_xor, hTpar, Bool.xor_false, ← g4 k hk]
      simp [hF])
    have hFs : ∀ y ∈ F, y ∈ code.syndrome := fun y hy => g3 y (List.mem_toFinset.1 hy)
    have hones : (onesOf code fun y => xor (decide (y ∈ F)) (decide (y ∈ T))) = (F \ T) ∪ (T \ F) := by
      ext y
      rw [mem_onesOf]
      have a1 := hFs y
      have a2 := hTs y
      clear * - a1 a2
      simp only [Finset.mem_union, Finset.mem_sdiff]
      by_cases h1 : y ∈ F <;> by_cases h2 : y ∈ T <;> simp_all
    have hdis : Disjoint (F \ T) (T \ F) := by
      rw [Finset.disjoint_left]
      intro y h1 h2
      exact (Finset.mem_sdiff.1 h1).2 (Finset.mem_sdiff.1 h2).1
    rw [hones, Finset.sum_union hdis, ← List.sum_toFinset w g2, ← hF] at hmin
    have e1 : ∑ y ∈ F \ T, w y + ∑ y ∈ F ∩ T, w y = ∑ y ∈ F, w y := by
      rw [← Finset.sum_union (Finset.disjoint_sdiff_inter F T), Finset.sdiff_union_inter]
    have hBT : ∀ y ∈ T, (y ∈ B ↔ y ∉ F) := by
      intro y hy
      have := ((hCmem y).1 (hTC hy)).2
      simp only [hb', hbits] at this
      rw [hF, List.mem_toFinset]
      by_cases h1 : y ∈ B <;> by_cases h2 : y ∈ R <;> simp_all
    have e2 : T \ F = T ∩ B := by
      ext y
      rw [Finset.mem_sdiff, Finset.mem_inter]
      exact and_congr_right fun hy => (hBT y hy).symm
    have e3 : T \ B = F ∩ T := by
      ext y
      rw [Finset.mem_sdiff, Finset.mem_inter, and_comm (a := y ∈ F)]
      exact and_congr_right fun hy => by rw [hBT y hy, not_not]
    rw [e2] at hmin
    rw [e3]
    linarith

/-- With unit weights: if the correction fails there is a trail of qubits, at least as long as the code in a checked direction, of which at
least half are flipped. -/
theorem heavy_trail {code : Code} (h : IsCode code) (X : Libs) {o : Opts} (ho : o.method = "uniform") {a : Weights.Attrs} {B : Finset V}
    (hf : Fails X code "MWPM" o a B) : ∃ x s L, s ∈ stabsOf code x ∧ (x :: L).Nodup ∧ (∀ y ∈ x :: L, y ∈ code.syndrome) ∧
      Trails.Run (stabsOf code) {s} L ∧ (∃ i ∈ planesToCheck code.ec code.boundaries, code.dims i ≤ (x :: L).length) ∧
      (x :: L).length ≤ 2 * ((x :: L).toFinset ∩ B).card := by
  classical
  obtain ⟨b', w', hf⟩ := hf
  set bits : V → Bool := fun x => decide (x ∈ B) with hbits
  obtain ⟨w, hw, hs, -, h1, -⟩ := weights_ok h (name := "MWPM") (o := o) (a := a) (Or.inl ⟨rfl, Or.inl ho⟩) fun _ => none
  rw [correctAll_of hw hs] at hf
  obtain ⟨r, hr, hr'⟩ := Option.map_eq_some_iff.1 hf
  have hcor : correct code (mwpmDecoder X.bk X.paths X.matching (stabGraph X.bk X.sp code) fun _ => 1) false bits = some r := by
    rw [← hr]
    apply correct_congr
    unfold decoderFunc mwpmDecoder matchGraph
    simp only [if_true]
    rw [weightedEdges_congr h X.bk X.sp (w := fun q => X.float.fl ((w q).getD 0)) (w' := fun _ => 1)]
    intro x hx
    rw [h1 ho rfl x hx, Option.getD_some]
    have := X.float.int 1
    simpa using this
  have hr2 : r.2 = false := by
    have := congrArg (fun t => t.2.2) hr'
    simpa using this
  obtain ⟨x, s, L, k1, k2, k3, k4, k5, k6⟩ := heavy_trail_w h X.bk X.sp X.paths X.matching (w := fun _ => 1) (fun _ _ => zero_le_one)
    (Or.inr fun _ _ => ⟨1, by simp⟩) (fun _ _ _ _ _ _ _ _ _ => rfl) hcor hr2
  refine ⟨x, s, L, k1, k2, k3, k4, k5, ?_⟩
  simp only [Finset.sum_const, nsmul_eq_mul, mul_one, Nat.cast_le] at k6
  rw [← List.toFinset_card_of_nodup k2, ← Finset.card_sdiff_add_card_inter (x :: L).toFinset B]
  omega

end Flamingpy.Trial
