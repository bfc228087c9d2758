import Verif.Props.MacroCode
import Verif.Proofs.MacroLaw

/-!
# C55 with a polarity and swap-outs

`_reduce_jth_macronode` (noise/cv.py:557-648) subtracts the position of a momentum state without the weight of the edge.
With an edge of weight -1 and swap-outs a bit flips although nothing is displaced.
-/

namespace Flamingpy.Noise

open Flamingpy Flamingpy.SurfaceCode Flamingpy.EGraph

section
variable {P : Type} [DecidableEq P]

/-- Random numbers without displacements: micronode `j` is swapped for a momentum state, at position √π / 2. -/
noncomputable def oneSwap (j n : ℕ) : MacroRnd :=
  ⟨[j], ⟨fun _ => 0, fun _ => 1 / 4, fun _ => 0⟩, ⟨fun _ => 0, fun _ => 0, fun _ => 0⟩, ⟨fun _ => 0, fun _ => 0, fun _ => 0⟩,
    List.replicate (2 * n) 0⟩

theorem sum_at (l : List ℕ) (hnd : l.Nodup) (j : ℕ) (f : ℕ → ℝ) (h0 : ∀ i ∈ l, i ≠ j → f i = 0) :
    (l.map f).sum = if j ∈ l then f j else 0 := by
  induction l with
  | nil => simp
  | cons a l ih =>
    rw [List.nodup_cons] at hnd
    rw [List.map_cons, List.sum_cons, ih hnd.2 fun i hi => h0 i (by simp [hi])]
    by_cases ha : a = j
    · subst ha
      simp [hnd.1]
    · rw [h0 a (by simp) ha, zero_add]
      have : j ∈ a :: l ↔ j ∈ l := by simp [Ne.symm ha]
      simp [this]

/-- One swapped micronode `j` with an edge of weight -1 flips the bit of the macronode at the other end. -/
theorem oneSwap_bits {M₀ M : Macro P} {cs : List P} {n : ℕ} (hok : MacroOk M₀ cs) (hf : Fresh M₀.layer) (h : MacroHist M₀ n M)
    {p : ℝ} (hsw : M₀.layer.pSwap = some p) (hp0 : p ≠ 0) (hp1 : p ≠ 1) {i₀ j : ℕ} (hi₀ : i₀ < M₀.layer.pts.length)
    (hij : nbI M₀ i₀ = some j) (hneg : wI M₀ j = -1) :
    ∃ M', macroApply M (oneSwap j M₀.layer.pts.length) = some M' ∧ (∀ c ∈ cs, M'.hasGkp c) ∧
      ∀ k (hk : k < cs.length), M'.redBit cs[k] = some (if k = i₀ / 4 then 1 else 0) := by
  obtain ⟨hh, hfr⟩ := h.inv hok hf
  obtain ⟨ps₀, gs₀, hi⟩ := hh.inv hf
  obtain ⟨hj, hji, -⟩ := hok.nbI_symm hi₀ hij
  have hlen := hok.len
  obtain ⟨M', ps, gs, h1, hi', hh', hf', hperm, _, σ, q, starP, hm, hstar, hbits, hps, hgs, hs1, hs2⟩ :=
    run_spec hok hi hh hfr (oneSwap j M₀.layer.pts.length) (by
      intro i hi2
      rw [hi.pts]
      simp only [oneSwap, List.mem_singleton] at hi2
      rw [hi2]; exact hj) (by rw [hi.pts]; simp [oneSwap])
  have hsw' : M.layer.pSwap = some p := hi.pSwap.trans hsw
  have hpsj : ps = [j] := by
    rw [hps]
    unfold nextP
    rw [if_pos ⟨p, hsw', hp0⟩, if_neg (by rw [hsw']; simpa using hp1)]
    rfl
  have hG : ∀ i, gkpSet ps i = true ↔ i ≠ j := by intro i; simp [gkpSet, hpsj]
  have hjg : j ∉ gs := by
    rw [hgs, mem_compl]
    rintro ⟨-, hc⟩
    exact hc (by simp [hpsj])
  set mq := meanQ (oneSwap j M₀.layer.pts.length).means ps gs with hmq
  have hmj : mq j = √Real.pi / 2 := by
    rw [hmq]; unfold meanQ
    rw [if_neg hjg, if_pos (by simp [hpsj])]
    simp only [oneSwap]; ring
  have hm0 : ∀ i, i ≠ j → mq i = 0 := by
    intro i hij
    rw [hmq, meanQ_gkp _ ((hG i).2 hij)]
    unfold bitOf
    simp [oneSwap]
  have hstarG : ∀ k, gkpSet ps (starOf (gkpSet ps) k) = true := by
    intro k
    rw [starOf_gkp]
    by_cases hjk : j = 4 * k
    · exact ⟨4 * k + 1, by omega, (hG _).2 (by omega)⟩
    · exact ⟨4 * k, by omega, (hG _).2 (Ne.symm hjk)⟩
  have hz : ∀ i < 4 * cs.length, zVal M' q i = mq i := by
    intro i hil
    rw [hs2 i hil, hstar (i / 4) (by omega), hm0 _ ((hG _).1 (hstarG _))]
    have : (oneSwap j M₀.layer.pts.length).q.z = fun _ => 0 := rfl
    rw [this, zNoise_zero]
    ring
  have hok' := hok.transport hi' hf'
  refine ⟨M', h1, fun c hc => ?_, fun k hk => ?_⟩
  · obtain ⟨k, hk, rfl⟩ := List.getElem_of_mem hc
    have hsl : starOf (gkpSet ps) k < 4 * cs.length := by have := starOf_mem (gkpSet ps) k; omega
    obtain ⟨x, hx, hxm, hxc⟩ := hok'.get hsl
    refine ⟨x, ?_, by rw [hm.label _ hsl x hx, if_pos (hstarG k)]⟩
    unfold Macro.micros
    rw [List.mem_filter, decide_eq_true_eq]
    refine ⟨hxm, ?_⟩
    rw [starOf_mem, List.getElem?_eq_getElem hk] at hxc
    exact (Option.some.inj hxc).symm
  · obtain ⟨a, a1, _, a3⟩ := hbits k _ (List.getElem?_eq_getElem hk)
    have hlper := arranged_perm (gkpSet ps) cs.length k hk σ (by rw [← hperm]; exact hm.get)
    set l := ([0, 1, 2, 3].map fun t => σ (4 * k + t)).filterMap (nbI M') with hl
    have hnb : nbI M' = nbI M₀ := by funext i; unfold nbI; rw [hi'.pts, hf'.nbrs]
    have hlp : l.Perm ((row k).filterMap (nbI M₀)) := by rw [hl, hnb]; exact hlper.filterMap _
    have hrow : ∀ i ∈ row k, i < M₀.layer.pts.length := by
      intro i hi2; rw [mem_row] at hi2; omega
    have hlnd : l.Nodup := by
      rw [hlp.nodup_iff]
      have hrn : (row k).Nodup := by unfold row; simp
      unfold List.Nodup
      rw [List.pairwise_filterMap]
      refine List.Pairwise.imp_of_mem (fun {a c} ha hc hac b hb b' hb' hbb => ?_) hrn
      subst hbb
      obtain ⟨-, e1, -⟩ := hok.nbI_symm (hrow a ha) hb
      obtain ⟨-, e2, -⟩ := hok.nbI_symm (hrow c hc) hb'
      rw [e1] at e2
      exact hac (Option.some.inj e2)
    have hjl : j ∈ l ↔ k = i₀ / 4 := by
      rw [hlp.mem_iff, List.mem_filterMap]
      constructor
      · rintro ⟨i, hir, hi2⟩
        obtain ⟨-, h3, -⟩ := hok.nbI_symm (hrow i hir) hi2
        rw [hji] at h3
        rw [Option.some.inj h3]
        exact (mem_row.1 hir).symm
      · rintro rfl
        exact ⟨i₀, mem_row.2 rfl, hij⟩
    have hlt : ∀ i ∈ l, i < 4 * cs.length := by
      intro i hil
      rw [hlp.mem_iff, List.mem_filterMap] at hil
      obtain ⟨i', hir, hi2⟩ := hil
      obtain ⟨h3, -⟩ := hok.nbI_symm (hrow i' hir) hi2
      omega
    have hsn : starNoise M₀.layer M'.perm (oneSwap j M₀.layer.pts.length).p.z k = 0 := by
      unfold starNoise
      simp [oneSwap]
    have hout : a.outcome = if k = i₀ / 4 then -√Real.pi else 0 := by
      rw [a3.outcome, hs1 k hk, hsn, mul_zero, add_zero, sum_at _ hlnd j _ fun i _ hne => by rw [hm0 i hne, mul_zero],
        sum_at _ (hlnd.filter _) j _ fun i hil hne => by
          rw [hz i (hlt i (List.mem_filter.1 hil).1), hm0 i hne]]
      have hjf : j ∈ l.filter (fun i => !gkpSet ps i) ↔ j ∈ l := by
        rw [List.mem_filter]
        simp [gkpSet, hpsj]
      rw [hneg, hmj, hz j (by omega), hmj]
      simp only [hjf, hjl]
      split_ifs
      · ring
      · ring
    have hgk : (a.gkpZ.map Gkp.gkpBinner).sum = 0 := by
      rw [a3.gkpZ, List.map_map]
      rw [List.map_congr_left (g := fun _ => (0 : ℤ)) fun i hil => by
        rw [List.mem_filter] at hil
        rw [Function.comp, hz i (hlt i hil.1), hm0 i ((hG i).1 hil.2), Gkp.binner_zero]]
      simp
    rw [a1, finalBit, hgk, hout, add_zero]
    split_ifs
    · have := Gkp.gkpBinner_of_decomp (-1) 0 (by have := Gkp.binWidth_pos; linarith) (by have := Gkp.binWidth_pos; linarith)
      rw [show -√Real.pi = ((-1 : ℤ) : ℝ) * Gkp.binWidth + 0 by unfold Gkp.binWidth; push_cast; ring, this]
      norm_num
    · rw [Gkp.binner_zero]; norm_num

end

/-- C55 fails with swap-outs and an edge of weight -1: at every syndrome qubit `x` with such an edge there is a call of
`apply_noise`, after any history, in which nothing is displaced and every macronode contains a GKP state, but the bit of `x`,
and only this bit, is 1; the stabilizers of `x` are violated. -/
theorem C55_polarity {code : Code} {delta p : ℝ} {M₀ M : Macro Pt} {n : ℕ} (h : OnPolarCode code delta (some p) M₀)
    (hp0 : p ≠ 0) (hp1 : p ≠ 1) (hh : MacroHist M₀ n M) {x y : V} {per : Bool} (hx : x ∈ code.syndrome)
    (he : PyDict.get? code.graph.edges s(x, y) = some (-1, per)) :
    ∃ (r : MacroRnd) (M' : Macro Pt), (∀ i ∈ r.draw, i < M.layer.pts.length) ∧ r.empty.length = 2 * M.layer.pts.length ∧
      (∀ z, r.p.z z = 0 ∧ r.q.z z = 0) ∧ macroApply M r = some M' ∧
      (∀ z ∈ PyDict.keys code.graph.nodes, M'.hasGkp (toPt z) ∧ M'.redBit (toPt z) = some (if z = x then 1 else 0)) ∧
      ¬ trivialSyndrome code fun z => decide (M'.redBit (toPt z) = some 1) := by
  have hc := h.valid
  obtain ⟨cs, hok, hf, hdel, hsw, hpi, h6, h7⟩ := h.ok
  have hxk : s(x, y) ∈ PyDict.keys code.graph.edges := (PyDict.get?_isSome_iff _ _).1 (by rw [he]; rfl)
  have hedge := (hc.ok.1.graphEdges x y).1 hxk
  have hxn : x ∈ PyDict.keys code.graph.nodes := (hc.ok.1.graphNodes x).2 hedge.1
  have hyn : y ∈ PyDict.keys code.graph.nodes := (hc.ok.1.graphNodes y).2 hedge.2.1
  have hya : toPt y ∈ M₀.around (toPt x) := by
    rw [(h7 x hxn).mem_iff]
    apply List.mem_map_of_mem
    unfold neighbors
    rw [List.mem_filter]
    exact ⟨hyn, by simpa using hxk⟩
  unfold Macro.around at hya
  obtain ⟨w, hw, hwy⟩ := List.mem_map.1 hya
  obtain ⟨v, hv, hvw⟩ := List.mem_flatMap.1 hw
  unfold Macro.micros at hv
  rw [List.mem_filter, decide_eq_true_eq] at hv
  obtain ⟨i₀, hi₀, rfl⟩ := List.getElem_of_mem hv.1
  obtain ⟨j, hj, hjw⟩ : ∃ j, nbI M₀ i₀ = some j ∧ M₀.layer.pts[j]? = some w := by
    rcases hok.nbI_cases (List.getElem?_eq_getElem hi₀) with ⟨-, h3⟩ | ⟨j, q, h1, h2, h3⟩
    · rw [h3] at hvw; cases hvw
    · rw [h3, List.mem_singleton] at hvw
      exact ⟨j, h1, by rw [h2, hvw]⟩
  obtain ⟨hjl, hjw⟩ := List.getElem?_eq_some_iff.1 hjw
  have hneg : wI M₀ j = -1 := by
    obtain ⟨hjl', hwI⟩ := hok.wI_eq hi₀ hj
    obtain ⟨x', y', -, e1, e2, e3⟩ := h.adj ⟨i₀, hi₀⟩ ⟨j, hjl⟩ (by simpa [hjw] using hvw)
    have hx' : x' = x := toPt_inj (e1.symm.trans hv.2)
    have hy' : y' = y := toPt_inj (by rw [← e2, ← hwy]; simp [hjw])
    rw [hwI, e3, hx', hy', polarityOf, he]
    norm_num
  obtain ⟨M', a1, a2, a3⟩ := oneSwap_bits hok hf hh hsw hp0 hp1 hi₀ hj hneg
  obtain ⟨hH, hfr⟩ := hh.inv hok hf
  obtain ⟨ps₀, gs₀, hi⟩ := hH.inv hf
  have hbit : ∀ z ∈ PyDict.keys code.graph.nodes, M'.redBit (toPt z) = some (if z = x then 1 else 0) := by
    intro z hz
    obtain ⟨k, hk, hkc⟩ := List.getElem_of_mem ((h6 (toPt z)).2 ⟨z, hz, rfl⟩)
    rw [← hkc, a3 k hk]
    have hc1 := hok.centre i₀ _ (List.getElem?_eq_getElem hi₀)
    rw [hv.2] at hc1
    have : k = i₀ / 4 ↔ z = x := by
      constructor
      · rintro rfl
        rw [List.getElem?_eq_getElem hk, hkc] at hc1
        exact toPt_inj (Option.some.inj hc1)
      · rintro rfl
        rw [← hkc] at hc1
        obtain ⟨hk', hc2⟩ := List.getElem?_eq_some_iff.1 hc1
        exact (hok.csNodup.getElem_inj_iff.1 hc2).symm
    simp only [this]
  refine ⟨_, M', ?_, ?_, fun z => ⟨rfl, rfl⟩, a1, fun z hz => ⟨a2 _ ((h6 _).2 ⟨z, hz, rfl⟩), hbit z hz⟩, ?_⟩
  · intro i hi2
    rw [hi.pts]
    simp only [oneSwap, List.mem_singleton] at hi2
    rw [hi2]; exact hjl
  · rw [hi.pts]; simp [oneSwap]
  · intro ht
    obtain ⟨s, hs, hxs⟩ : ∃ s ∈ code.stabs, x ∈ s := by
      by_contra hn
      push Not at hn
      have : code.stabs.countP (fun s => decide (x ∈ s)) = 0 := by
        rw [List.countP_eq_zero]
        intro s hs
        simpa using hn s hs
      rcases C25_checked_twice hc hx with ⟨-, h2⟩ | ⟨-, h2⟩ <;> omega
    have hsub := (C25_only_syndrome hc).2.1 s hs
    have := ht s hs
    rw [parity_mem, decide_eq_false_iff_not] at this
    apply this
    have : s.filter (fun z => decide (M'.redBit (toPt z) = some 1)) = [x] := by
      have e : s.filter (fun z => decide (M'.redBit (toPt z) = some 1)) = s.filter fun z => decide (z = x) := by
        apply List.filter_congr
        intro z hz
        rw [hbit z ((C25_all hc z).1 (hsub.2 z hz)).1]
        by_cases hzx : z = x <;> simp [hzx]
      rw [e]
      have h1 : (s.filter fun z => decide (z = x)).length = 1 := by
        rw [← List.countP_eq_length_filter]
        have := List.count_eq_one_of_mem hsub.1 hxs
        unfold List.count at this
        rw [← this]
        congr 1
      obtain ⟨z, hz⟩ := List.length_eq_one_iff.1 h1
      have : x ∈ s.filter fun z => decide (z = x) := by rw [List.mem_filter]; exact ⟨hxs, by simp⟩
      rw [hz, List.mem_singleton] at this
      rw [hz, this]
    rw [this]
    exact odd_one

/-- Every syndrome qubit with four edges of a code with `alternating_polarity` has such an edge. -/
theorem alternating_edge {o : SetOrder} {ec : Ec} {b : Boundaries} {dims : Fin 3 → ℕ} {code : Code} (hd : ∀ i, 2 ≤ dims i)
    (hc : surfaceCode o ec b dims (some alternatingPolarity) = some code) {x : V} (hx : x ∈ PyDict.keys code.graph.nodes)
    (h4 : (edgesAt code.graph x).length = 4) : ∃ y per, PyDict.get? code.graph.edges s(x, y) = some (-1, per) := by
  have hgr := (code_graph hc).1
  rw [hgr] at hx h4 ⊢
  have h2 := (C24_alternating_polarity (goodDims_of_two hd _) (o.perm 0 _) x hx h4).2
  obtain ⟨e, he⟩ := List.exists_mem_of_ne_nil _ (List.ne_nil_of_length_pos (by rw [h2]; omega))
  rw [List.mem_filter, decide_eq_true_eq] at he
  unfold edgesAt at he
  rw [List.mem_filter, decide_eq_true_eq] at he
  obtain ⟨⟨he1, hxe⟩, he2⟩ := he
  obtain ⟨y, hy⟩ := hxe
  refine ⟨y, e.2.2, ?_⟩
  rw [PyDict.get?_iff_mem (rhgGraph_built _ _ _ _).edgesNd, ← hy, ← he2]
  exact he1

-- a periodic code with alternating polarity and swap-outs
example (ec : Ec) : ∃ (o : SetOrder) (code : Code) (M₀ : Macro Pt) (r : MacroRnd) (M' : Macro Pt),
    surfaceCode o ec .periodic (fun _ => 3) (some alternatingPolarity) = some code ∧ OnPolarCode code (1 / 100) (some (1 / 10)) M₀ ∧
      (∀ z, r.p.z z = 0 ∧ r.q.z z = 0) ∧ macroApply M₀ r = some M' ∧
      ¬ trivialSyndrome code fun z => decide (M'.redBit (toPt z) = some 1) := by
  obtain ⟨o, code, M₀, hc, hM, hec, -⟩ := onPolarCode_exists ec .periodic (delta := 1 / 100) (by norm_num) (some (1 / 10))
    (some alternatingPolarity) (Or.inr rfl)
  obtain ⟨x, hx⟩ : ∃ x, x ∈ code.syndrome := by
    cases ec with
    | primal =>
      refine ⟨![0, 1, 1], (C25_all hM.valid _).2 ⟨(code_nodes (by simp) hc _).2 ⟨fun i => ?_, by decide⟩, by rw [hec]; decide⟩⟩
      fin_cases i <;> simp [boundsOf, strToBound, boundStr, PyDict.get?, inAxis]
    | dual =>
      refine ⟨![0, 0, 1], (C25_all hM.valid _).2 ⟨(code_nodes (by simp) hc _).2 ⟨fun i => ?_, by decide⟩, by rw [hec]; decide⟩⟩
      fin_cases i <;> simp [boundsOf, strToBound, boundStr, PyDict.get?, inAxis]
  have hxn := ((C25_all hM.valid x).1 hx).1
  obtain ⟨y, per, he⟩ := alternating_edge (by simp) hc hxn ((code_degree (by simp) hc hxn).2.2 rfl)
  obtain ⟨r, M', -, -, h3, h4, -, h5⟩ := C55_polarity hM (by norm_num) (by norm_num) .start hx he
  exact ⟨o, code, M₀, r, M', hc, hM, h3, h4, h5⟩

end Flamingpy.Noise
