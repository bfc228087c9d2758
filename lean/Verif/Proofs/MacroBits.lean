import Verif.Proofs.MacroRun

/-! # Bits of the reduced graph -/

namespace Flamingpy.Noise

open Flamingpy

variable {P : Type} [DecidableEq P]

theorem MacroOk.micros_perm {M : Macro P} {cs : List P} (h : MacroOk M cs) (p₀ : P) {k : ℕ} {c : P}
    (hk : cs[k]? = some c) : (M.micros c).Perm ((row k).map fun i => (M.layer.pts[i]?).getD p₀) := by
  have hkl : k < cs.length := (List.getElem?_eq_some_iff.1 hk).1
  have hlt : ∀ i ∈ row k, i < M.layer.pts.length := by
    intro i hi
    rw [mem_row] at hi
    rw [h.len]; omega
  rw [List.perm_ext_iff_of_nodup]
  · intro x
    unfold Macro.micros
    rw [List.mem_filter, decide_eq_true_eq, List.mem_map]
    constructor
    · rintro ⟨hx, hc⟩
      obtain ⟨i, hi⟩ := List.mem_iff_getElem?.1 hx
      refine ⟨i, ?_, by rw [hi]; rfl⟩
      have := h.centre i x hi
      rw [hc, ← hk] at this
      have hil : i < M.layer.pts.length := (List.getElem?_eq_some_iff.1 hi).1
      rw [h.len] at hil
      rw [List.getElem?_eq_getElem (by omega : i / 4 < cs.length), List.getElem?_eq_getElem hkl] at this
      exact mem_row.2 (h.csNodup.getElem_inj_iff.1 (Option.some.inj this))
    · rintro ⟨i, hi, rfl⟩
      have hil := hlt i hi
      rw [List.getElem?_eq_getElem hil, Option.getD_some]
      refine ⟨List.getElem_mem hil, ?_⟩
      have := h.centre i _ (List.getElem?_eq_getElem hil)
      rw [mem_row.1 hi, hk] at this
      exact (Option.some.inj this).symm
  · exact h.nodup.filter _
  · rw [List.nodup_map_iff_inj_on (by unfold row; simp)]
    intro i hi j hj hij
    rw [List.getElem?_eq_getElem (hlt i hi), List.getElem?_eq_getElem (hlt j hj)] at hij
    exact h.nodup.getElem_inj_iff.1 hij

/-- The sum over the macronodes joined to `c`, by indices. -/
theorem MacroOk.around_sum {M : Macro P} {cs : List P} (h : MacroOk M cs) {k : ℕ} {c : P} (hk : cs[k]? = some c)
    (b : P → ℤ) : ((M.around c).map b).sum =
      (((row k).filterMap (nbI M)).map fun i => ((M.layer.pts[i]?).map fun p => b (M.centre p)).getD 0).sum := by
  have hkl : k < cs.length := (List.getElem?_eq_some_iff.1 hk).1
  obtain ⟨p₀, _⟩ := h.get (i := 4 * k) (by omega)
  unfold Macro.around
  rw [List.map_map, (((h.micros_perm p₀ hk).flatMap_right M.nbrs).map _).sum_eq]
  have : ∀ l : List ℕ, (∀ i ∈ l, i < M.layer.pts.length) →
      (((l.map fun i => (M.layer.pts[i]?).getD p₀).flatMap M.nbrs).map (b ∘ M.centre)).sum =
      ((l.filterMap (nbI M)).map fun i => ((M.layer.pts[i]?).map fun p => b (M.centre p)).getD 0).sum := by
    intro l hl
    induction l with
    | nil => rfl
    | cons i l ih =>
      have hil := hl i (by simp)
      have ih := ih fun j hj => hl j (by simp [hj])
      rw [List.map_cons, List.flatMap_cons, List.map_append, List.sum_append, ih, List.filterMap_cons]
      have hg := List.getElem?_eq_getElem hil
      rcases h.nbI_cases hg with ⟨h1, h2⟩ | ⟨j, q, h1, h2, h3⟩
      · simp [h1, h2, hg]
      · simp [h1, h2, h3, hg]
  apply this
  intro i hi
  rw [mem_row] at hi
  rw [h.len]; omega

/-- The neighbours of the micronodes, in the order of the permutation. -/
theorem arranged_perm (g : ℕ → Bool) (n k : ℕ) (hk : k < n) (σ : ℕ → ℕ)
    (hσ : ∀ j < 4 * n, (permOf g n)[j]? = some (σ j)) : ([0, 1, 2, 3].map fun t => σ (4 * k + t)).Perm (row k) := by
  have : ([0, 1, 2, 3].map fun t => σ (4 * k + t)) = arrange g (row k) := by
    rw [← permOf_group g n k hk]
    apply List.ext_getElem?
    intro t
    by_cases ht : t < 4
    · rw [List.getElem?_take_of_lt ht, List.getElem?_drop, hσ _ (by omega)]
      interval_cases t <;> simp
    · rw [List.getElem?_eq_none (by simp; omega), List.getElem?_eq_none]
      rw [List.length_take]; omega
  rw [this]
  exact arrange_perm g (row k)

/-- The squeezed modes of a call do not depend on the calls before. -/
theorem nextP_hist {L₀ L : Layer P} {n : ℕ} {ps₀ gs₀ : List ℕ} (hf : Fresh L₀) (hp : L₀.pInds = some []) (hh : Hist L₀ n L)
    (hi : Inv L₀ L n ps₀ gs₀) {draw : List ℕ} (hd : ∀ i ∈ draw, i < L.pts.length) : nextP L draw ps₀ = nextP L₀ draw [] := by
  by_cases hs : swaps L₀
  · have hs' : swaps L := by unfold swaps; rw [hi.pSwap]; exact hs
    unfold nextP
    rw [if_pos hs, if_pos hs', hi.pSwap, hi.pts]
  · have hs' : ¬ swaps L := by unfold swaps; rw [hi.pSwap]; exact hs
    have e1 : nextP L draw ps₀ = ps₀ := by unfold nextP; rw [if_neg hs']
    have e2 : nextP L₀ draw [] = [] := by unfold nextP; rw [if_neg hs]
    have hpop := populate_spec L ps₀ gs₀ draw (by
      rcases hi.states with ⟨a, b, -⟩ | ⟨a, -⟩
      · exact Or.inl ⟨a, b⟩
      · exact Or.inr a) (by rw [e1]; exact hi.psLt)
    obtain ⟨ps, gs, c1, c2, -⟩ := C45_alternates hf (hh.populate draw hd hpop) (by omega) (by
      intro x hx
      by_contra hne
      exact hs ⟨x, hx, hne⟩)
    rw [hp] at c1
    obtain rfl := Option.some.inj c1
    rw [e2]
    simpa [Layer.pInds, Layer.withState, Layer.withStates, PyDict.get?] using c2

/-- With positive weights, or without momentum states, the edges at momentum states have weight one. -/
theorem straight_wI {M₀ M : Macro P} {cs : List P} (hok : MacroOk M₀ cs) (hs : M₀.straight) (hf : Fresh M₀.layer) {n : ℕ}
    {ps₀ gs₀ : List ℕ} (hh : Hist M₀.layer n M.layer) (hi : Inv M₀.layer M.layer n ps₀ gs₀) {draw : List ℕ}
    (hd : ∀ i ∈ draw, i < M.layer.pts.length) (i : ℕ) (hG : gkpSet (nextP M.layer draw ps₀) i = false) : wI M₀ i = 1 := by
  rcases hs with h | ⟨h1, h2⟩
  · exact hok.wI_pos h i
  · exfalso
    rw [nextP_hist hf h2 hh hi hd] at hG
    have hsw : ¬ swaps M₀.layer := by rintro ⟨x, hx, hx0⟩; exact hx0 (h1 x hx)
    unfold nextP at hG
    rw [if_neg hsw] at hG
    simp [gkpSet] at hG

/-- The bits of one run. -/
theorem run_bits {M₀ M : Macro P} {cs : List P} (hok : MacroOk M₀ cs) {n : ℕ} {ps₀ gs₀ : List ℕ}
    (hi : Inv M₀.layer M.layer n ps₀ gs₀) (hh : Hist M₀.layer n M.layer) (hf : Frame M₀ M) (r : MacroRnd)
    (hdraw : ∀ i ∈ r.draw, i < M.layer.pts.length) (he : r.empty.length = 2 * M.layer.pts.length)
    (hw : ∀ i, gkpSet (nextP M.layer r.draw ps₀) i = false → wI M₀ i = 1)
    {eps : ℝ} (heps : 20 * eps < √Real.pi) (hp : ∀ z, |√(M₀.layer.delta / 2) * r.p.z z| ≤ eps)
    (hq : ∀ z, |√(M₀.layer.delta / 2) * r.q.z z| ≤ eps) :
    ∃ M' b, macroApply M r = some M' ∧ ∀ c ∈ cs, (∀ c' ∈ M₀.around c, M'.hasGkp c') →
      M'.redBit c = some (((M₀.around c).map b).sum % 2) := by
  obtain ⟨M', ps, gs, h1, hi', hh', hf', hperm, _, σ, q, starP, hm, hstar, hbits, hps, _, hs1, hs2⟩ :=
    run_spec hok hi hh hf r hdraw he
  have hok' := hok.transport hi' hf'
  have hdel : M'.layer.delta = M₀.layer.delta := hi'.delta
  have herr1 : ∀ k < cs.length, |2 * starP k - ((([0, 1, 2, 3].map fun t => σ (4 * k + t)).filterMap (nbI M')).map
      fun i => (wZ M₀ i : ℝ) * meanQ r.means ps gs i).sum| ≤ 2 * eps := by
    intro k hk
    have := abs_le.1 (starNoise_le M'.perm hp k)
    simp only [← hok.wI_cast]
    rw [hs1 k hk, add_sub_cancel_left, abs_le]
    constructor <;> linarith
  have herr2 : ∀ i < 4 * cs.length, |zVal M' q i - (meanQ r.means ps gs i - meanQ r.means ps gs (σ (4 * (i / 4))))| ≤ 2 * eps := by
    intro i hi
    rw [hs2 i hi, add_sub_cancel_left]
    exact zNoise_le M'.perm hq i
  have har : ∀ c, M'.around c = M₀.around c := by
    intro c
    unfold Macro.around Macro.micros
    rw [hi'.pts, hf'.nbrs, hf'.centre]
  set b : P → ℤ := fun c => bitOf r.means gs (starOf (gkpSet ps) (cs.idxOf c)) with hb
  refine ⟨M', b, h1, fun c hc hgkp => ?_⟩
  obtain ⟨k, hkl, rfl⟩ := List.getElem_of_mem hc
  have hk : cs[k]? = some cs[k] := List.getElem?_eq_getElem hkl
  obtain ⟨a, a1, _, a3⟩ := hbits k _ hk
  have hlper := arranged_perm (gkpSet ps) cs.length k hkl σ (by rw [← hperm]; exact hm.get)
  set l := ([0, 1, 2, 3].map fun t => σ (4 * k + t)).filterMap (nbI M') with hl
  have hlp : l.Perm ((row k).filterMap (nbI M')) := hlper.filterMap _
  have hrow : ∀ i ∈ row k, i < 4 * cs.length := by
    intro i hi; rw [mem_row] at hi; omega
  -- members of `l`
  have hmem : ∀ i ∈ l, ∃ p, M'.layer.pts[i]? = some p ∧ i < 4 * cs.length ∧ M'.centre p ∈ M'.around cs[k] := by
    intro i hil
    rw [hlp.mem_iff, List.mem_filterMap] at hil
    obtain ⟨j, hj, hij⟩ := hil
    obtain ⟨x, hx, hxm, hxc⟩ := hok'.get (hrow j hj)
    rcases hok'.nbI_cases hx with ⟨e1, _⟩ | ⟨i', w, e1, e2, e3⟩
    · rw [e1] at hij; cases hij
    · rw [e1] at hij
      obtain rfl := Option.some.inj hij
      refine ⟨w, e2, ?_, ?_⟩
      · have := (List.getElem?_eq_some_iff.1 e2).1
        rwa [hok'.len] at this
      · unfold Macro.around
        apply List.mem_map_of_mem
        rw [List.mem_flatMap]
        refine ⟨x, ?_, by rw [e3]; simp⟩
        unfold Macro.micros
        rw [List.mem_filter]
        refine ⟨hxm, ?_⟩
        rw [mem_row.1 hj, hk] at hxc
        simpa using (Option.some.inj hxc).symm
  have hsG : ∀ i ∈ l, gkpSet ps (starOf (gkpSet ps) (i / 4)) = true := by
    intro i hil
    obtain ⟨p, hp1, hp2, hp3⟩ := hmem i hil
    rw [har] at hp3
    obtain ⟨x, hx, hs⟩ := hgkp _ hp3
    rw [starOf_gkp]
    unfold Macro.micros at hx
    rw [List.mem_filter, decide_eq_true_eq] at hx
    obtain ⟨j, hj⟩ := List.mem_iff_getElem?.1 hx.1
    have hjl : j < 4 * cs.length := by
      have := (List.getElem?_eq_some_iff.1 hj).1
      rwa [hok'.len] at this
    refine ⟨j, ?_, ?_⟩
    · have c1 := hok'.centre j x hj
      have c2 := hok'.centre i p hp1
      rw [hx.2, ← c2] at c1
      rw [List.getElem?_eq_getElem (by omega : j / 4 < cs.length), List.getElem?_eq_getElem (by omega : i / 4 < cs.length)] at c1
      exact hok.csNodup.getElem_inj_iff.1 (Option.some.inj c1)
    · have := hm.label j hjl x hj
      rw [this] at hs
      by_contra hne
      simp [hne] at hs
  have hfin := finalBit_eq l (by
      rw [hl]; exact (List.length_filterMap_le _ _).trans (by simp)) (gkpSet ps) (zVal M' q) (meanQ r.means ps gs)
      (bitOf r.means gs) (fun i => bitOf r.means gs (starOf (gkpSet ps) (i / 4))) (wZ M₀) eps (starP k) heps
      (fun i _ hG => meanQ_gkp r.means hG) (by
        intro i hil
        obtain ⟨p, _, hp2, _⟩ := hmem i hil
        have := herr2 i hp2
        rw [hstar (i / 4) (by omega), meanQ_gkp r.means (hsG i hil)] at this
        exact this) (fun i _ => wZ_one M₀ i) (fun i _ hGi => wZ_of_one (hw i (by rw [← hps]; exact hGi))) (herr1 k hkl) a a3.outcome a3.gkpZ
  rw [a1, hfin]
  congr 2
  rw [(hlp.map _).sum_eq, ← har, hok'.around_sum hk]
  congr 1
  apply List.map_congr_left
  intro i hil
  obtain ⟨p, hp1, hp2, _⟩ := hmem i (hlp.mem_iff.2 hil)
  rw [hp1]
  simp only [Option.map_some, Option.getD_some]
  have c2 := hok'.centre i p hp1
  have : cs.idxOf (M'.centre p) = i / 4 := by
    rw [List.getElem?_eq_getElem (by omega : i / 4 < cs.length)] at c2
    rw [← Option.some.inj c2]
    exact hok.csNodup.idxOf_getElem _ _
  rw [hb]
  simp only [this]

end Flamingpy.Noise
