import Verif.Props.Macro
import Verif.Proofs.MacroNoise

/-! # Outcomes of macronode noise, exactly -/

namespace Flamingpy.Gkp

theorem frac_mem (x : ℝ) : fracOf x ∈ Set.Ioc (-(binWidth / 2)) (binWidth / 2) := by
  unfold fracOf gkpBinnerFrac
  have := integerFractional_frac x binWidth_pos
  exact ⟨this.1, this.2⟩

/-- Adding a multiple of `√π`. -/
theorem binner_add (m : ℤ) (x : ℝ) : gkpBinner (m * √Real.pi + x) = (m + gkpBinner x) % 2 ∧
    fracOf (m * √Real.pi + x) = fracOf x := by
  set n := (integerFractional x binWidth).1 with hn
  have hx : x = n * binWidth + fracOf x := integerFractional_eq x binWidth
  have hb : gkpBinner x = n % 2 := rfl
  have h := binner_bin (m + n) (frac_mem x)
  have e : m * √Real.pi + x = ((m + n : ℤ) : ℝ) * binWidth + fracOf x := by
    conv_lhs => rw [hx]
    unfold binWidth
    push_cast
    ring
  rw [hb, e]
  constructor
  · change (gkpBinnerFrac _).1 = _
    rw [h]
    simp only
    omega
  · unfold fracOf at h ⊢
    rw [h]

end Flamingpy.Gkp

namespace Flamingpy.Noise

open Flamingpy

variable {P : Type} [DecidableEq P]

/-- The indices of the neighbours of macronode `k`. -/
def nbList (M : Macro P) (k : ℕ) : List ℕ := (row k).filterMap (nbI M)

theorem MacroOk.nbList_get {M : Macro P} {cs : List P} (h : MacroOk M cs) {k : ℕ} (hk : k < cs.length) {i : ℕ}
    (hi : i ∈ nbList M k) : i < 4 * cs.length ∧ ∃ y, M.layer.pts[i]? = some y ∧ y ∈ M.links cs[k] := by
  unfold nbList at hi
  rw [List.mem_filterMap] at hi
  obtain ⟨j, hj, hji⟩ := hi
  have hjl : j < M.layer.pts.length := by
    rw [mem_row] at hj; rw [h.len]; omega
  have hg := List.getElem?_eq_getElem hjl
  rcases h.nbI_cases hg with ⟨b1, b2⟩ | ⟨j', w, b1, b2, b3⟩
  · rw [b1] at hji; cases hji
  · rw [b1] at hji
    obtain rfl := Option.some.inj hji
    refine ⟨?_, w, b2, ?_⟩
    · have := (List.getElem?_eq_some_iff.1 b2).1
      rwa [h.len] at this
    · unfold Macro.links
      rw [List.mem_flatMap]
      refine ⟨_, ?_, by rw [b3]; simp⟩
      unfold Macro.micros
      rw [List.mem_filter]
      refine ⟨List.getElem_mem hjl, ?_⟩
      have hc := h.centre j _ hg
      rw [mem_row.1 hj, List.getElem?_eq_getElem hk] at hc
      simpa using (Option.some.inj hc).symm

theorem MacroOk.links_perm {M : Macro P} {cs : List P} (h : MacroOk M cs) {k : ℕ} (hk : k < cs.length) (s : P) :
    ((nbList M k).map fun i => (M.layer.pts[i]?).getD s).Perm (M.links cs[k]) := by
  have hrow : ∀ i ∈ row k, i < M.layer.pts.length := by
    intro i hi
    rw [mem_row] at hi
    rw [h.len]; omega
  refine List.Perm.trans (List.Perm.of_eq ?_) ((h.micros_perm s (List.getElem?_eq_getElem hk)).flatMap_right M.nbrs).symm
  unfold nbList
  have : ∀ l : List ℕ, (∀ i ∈ l, i < M.layer.pts.length) →
      (l.filterMap (nbI M)).map (fun i => (M.layer.pts[i]?).getD s) = (l.map fun i => (M.layer.pts[i]?).getD s).flatMap M.nbrs := by
    intro l hl
    induction l with
    | nil => rfl
    | cons i l ih =>
      have hil := hl i (by simp)
      have ih := ih fun j hj => hl j (by simp [hj])
      have hgi := List.getElem?_eq_getElem hil
      rcases h.nbI_cases hgi with ⟨b1, b2⟩ | ⟨j, w, b1, b2, b3⟩
      · simp [b1, b2, hgi, ih]
      · have hgj : (M.layer.pts[j]?).getD s = w := by rw [b2]; rfl
        rw [List.filterMap_cons_some b1, List.map_cons, List.map_cons, List.flatMap_cons, ih, hgj, hgi,
          Option.getD_some, b3]
        rfl
  exact this _ hrow

/-- The neighbours with some property, by indices. -/
theorem MacroOk.links_filter {M : Macro P} {cs : List P} (h : MacroOk M cs) {k : ℕ} (hk : k < cs.length)
    (f : P → Bool) (g : ℕ → Bool) (hfg : ∀ i y, M.layer.pts[i]? = some y → f y = g i) {α : Type} (a : P → α) (b : ℕ → α)
    (hab : ∀ i y, M.layer.pts[i]? = some y → a y = b i) :
    (((M.links cs[k]).filter f).map a).Perm (((nbList M k).filter g).map b) := by
  by_cases hnil : nbList M k = []
  · by_cases hP : M.links cs[k] = []
    · simp [hnil, hP]
    · obtain ⟨s, _⟩ := List.exists_mem_of_ne_nil _ hP
      have := h.links_perm hk s
      rw [hnil] at this
      exact absurd this.symm.eq_nil hP
  · obtain ⟨i₀, hi₀⟩ := List.exists_mem_of_ne_nil _ hnil
    obtain ⟨_, s, _⟩ := h.nbList_get hk hi₀
    refine (((h.links_perm hk s).symm.filter _).map a).trans (List.Perm.of_eq ?_)
    rw [List.filter_map, List.map_map]
    have hg : ∀ i ∈ nbList M k, M.layer.pts[i]? = some ((M.layer.pts[i]?).getD s) := by
      intro i hi
      obtain ⟨_, y, hy, _⟩ := h.nbList_get hk hi
      rw [hy]; rfl
    rw [List.filter_congr (q := g) fun i hi => by rw [Function.comp]; exact hfg i _ (hg i hi)]
    exact List.map_congr_left fun i hi => hab i _ (hg i (List.mem_filter.1 hi).1)

/-- The noise that reaches a node, in terms of the micronodes. -/
theorem run_exact {M₀ M : Macro P} {cs : List P} (hok : MacroOk M₀ cs) {n : ℕ} {ps₀ gs₀ : List ℕ}
    (hi : Inv M₀.layer M.layer n ps₀ gs₀) (hh : Hist M₀.layer n M.layer) (hf : Frame M₀ M) (r : MacroRnd)
    (hdraw : ∀ i ∈ r.draw, i < M.layer.pts.length) (he : r.empty.length = 2 * M.layer.pts.length)
    {ps gs : List ℕ} (hps : ps = nextP M.layer r.draw ps₀) (hgs : gs = compl M.layer.pts.length (ps ++ gs₀))
    (hw : ∀ i, gkpSet ps i = false → wI M₀ i = 1) :
    ∃ M', macroApply M r = some M' ∧ Frame M₀ M' ∧ M'.layer.pts = M₀.layer.pts ∧ M'.layer.delta = M₀.layer.delta ∧
      (∀ i y, M₀.layer.pts[i]? = some y → M'.layer.attrs.state y = some (if gkpSet ps i then "GKP" else "p") ∧
        M'.bodyIndex y = some ((permOf (gkpSet ps) cs.length).idxOf i % 4 + 1)) ∧
      ∀ k (hk : k < cs.length), (∀ i ∈ nbList M₀ k, gkpSet ps (starOf (gkpSet ps) (i / 4)) = true) →
        M'.redBit cs[k] = some ((Gkp.gkpBinner (M'.outcome cs[k]) +
          ((M'.gkpLinks cs[k]).map fun y => Gkp.gkpBinner (M'.contribution y)).sum) % 2) ∧
        M'.outcome cs[k] = (((nbList M₀ k).map fun i => if gkpSet ps i then wZ M₀ i * bitOf r.means gs i else
            bitOf r.means gs (starOf (gkpSet ps) (i / 4))).sum : ℤ) * √Real.pi +
          outNoise M₀.layer (permOf (gkpSet ps) cs.length) (gkpSet ps) (nbList M₀ k) r.p.z r.q.z k ∧
        ∀ i ∈ nbList M₀ k, gkpSet ps i = true → ∀ y, M₀.layer.pts[i]? = some y → M'.contribution y =
          ((bitOf r.means gs i - bitOf r.means gs (starOf (gkpSet ps) (i / 4)) : ℤ) : ℝ) * √Real.pi +
            zNoise M₀.layer (permOf (gkpSet ps) cs.length) r.q.z i := by
  obtain ⟨M', ps', gs', h1, hi', hh', hf', hperm, _, σ, q, starP, hm, hstar, hbits, e1, e2, hs1, hs2⟩ :=
    run_spec hok hi hh hf r hdraw he
  rw [← hps] at e1
  subst e1
  rw [← hgs] at e2
  subst e2
  have hok' := hok.transport hi' hf'
  have hpts : M'.layer.pts = M₀.layer.pts := hi'.pts
  have hnb : ∀ i, nbI M' i = nbI M₀ i := by
    intro i; unfold nbI; rw [hpts, hf'.nbrs]
  have hnbl : ∀ k, nbList M' k = nbList M₀ k := by
    intro k; unfold nbList; rw [show nbI M' = nbI M₀ from funext hnb]
  have hlt : ∀ i y, M₀.layer.pts[i]? = some y → i < 4 * cs.length := by
    intro i y hy
    have := (List.getElem?_eq_some_iff.1 hy).1
    rwa [hok.len] at this
  refine ⟨M', h1, hf', hpts, hi'.delta, fun i y hy => ?_, fun k hk hsG => ?_⟩
  · have hil := hlt i y hy
    rw [← hpts] at hy
    refine ⟨hm.label i hil y hy, ?_⟩
    obtain ⟨t, ht, hσ, htl⟩ := hm.surj hil
    have := hm.body _ htl y (by rw [hσ]; exact hy)
    rw [this]
    have e := hm.idx htl
    rw [hσ, hperm] at e
    rw [e]
  · obtain ⟨a, a1, _, a3⟩ := hbits k _ (List.getElem?_eq_getElem hk)
    have hlper := arranged_perm (gkpSet ps') cs.length k hk σ (by rw [← hperm]; exact hm.get)
    have hlp : (([0, 1, 2, 3].map fun t => σ (4 * k + t)).filterMap (nbI M')).Perm (nbList M₀ k) := by
      rw [← hnbl]; exact hlper.filterMap _
    set l := ([0, 1, 2, 3].map fun t => σ (4 * k + t)).filterMap (nbI M') with hl
    have hlab : ∀ i y, M'.layer.pts[i]? = some y → M'.layer.attrs.state y = some (if gkpSet ps' i then "GKP" else "p") := by
      intro i y hy
      exact hm.label i (hlt i y (by rw [← hpts]; exact hy)) y hy
    -- the star's outcome
    obtain ⟨s, s1, s2, s3, s4⟩ := hm.bodies (List.getElem?_eq_getElem hk) (t := 0) (by omega)
    rw [add_zero] at s2
    have hfind : ((M'.micros cs[k]).find? fun x => decide (M'.bodyIndex x = some 1)) = some s := by
      have hex : ((M'.micros cs[k]).find? fun x => decide (M'.bodyIndex x = some 1)).isSome := by
        rw [List.find?_isSome]
        exact ⟨s, s1, by simpa using s3⟩
      obtain ⟨x, hx⟩ := Option.isSome_iff_exists.1 hex
      rw [hx]
      have hx1 := List.find?_some hx
      have hx2 := List.mem_of_find?_eq_some hx
      exact congrArg some (s4 x hx2 (by simpa using hx1))
    have hP := hok'.links_filter hk (fun y => decide (M'.layer.attrs.state y = some "p")) (fun i => !gkpSet ps' i)
      (fun i y hy => by rw [hlab i y hy]; cases gkpSet ps' i <;> simp) M'.contribution (zVal M' q)
      (fun i y hy => hm.contribution hy)
    have hG := hok'.links_filter hk (fun y => decide (M'.layer.attrs.state y = some "GKP")) (gkpSet ps')
      (fun i y hy => by rw [hlab i y hy]; cases gkpSet ps' i <;> simp) (fun y => Gkp.gkpBinner (M'.contribution y))
      (fun i => Gkp.gkpBinner (zVal M' q i)) (fun i y hy => by rw [hm.contribution hy])
    rw [hnbl] at hP hG
    have hout : M'.outcome cs[k] = 2 * starP k - (((nbList M₀ k).filter fun i => !gkpSet ps' i).map (zVal M' q)).sum := by
      unfold Macro.outcome Macro.pLinks
      rw [hfind, Option.bind_some, hm.homP k hk s s2, Option.getD_some, hP.sum_eq]
    have hz : ∀ i ∈ nbList M₀ k, zVal M' q i = meanQ r.means ps' gs' i -
        bitOf r.means gs' (starOf (gkpSet ps') (i / 4)) * √Real.pi + zNoise M₀.layer (permOf (gkpSet ps') cs.length) r.q.z i := by
      intro i hil
      have hil' := (hok.nbList_get hk hil).1
      rw [hs2 i hil', hstar (i / 4) (by omega), meanQ_gkp r.means (hsG i hil), hperm]
    refine ⟨?_, ?_, ?_⟩
    · rw [a1, finalBit, a3.outcome, a3.gkpZ, hout, Macro.gkpLinks, hG.sum_eq,
        (((hlp.filter fun i => !gkpSet ps' i).map (zVal M' q)).sum_eq), List.map_map,
        ((hlp.filter (gkpSet ps')).map _).sum_eq]
      rfl
    · rw [hout, hs1 k hk, (hlp.map _).sum_eq, hperm, outNoise]
      have : ∀ l' : List ℕ, (∀ i ∈ l', i ∈ nbList M₀ k) →
          (l'.map fun i => wI M₀ i * meanQ r.means ps' gs' i).sum - ((l'.filter fun i => !gkpSet ps' i).map (zVal M' q)).sum =
          ((l'.map fun i => if gkpSet ps' i then wZ M₀ i * bitOf r.means gs' i else
            bitOf r.means gs' (starOf (gkpSet ps') (i / 4))).sum : ℤ) * √Real.pi -
            ((l'.filter fun i => !gkpSet ps' i).map (zNoise M₀.layer (permOf (gkpSet ps') cs.length) r.q.z)).sum := by
        intro l' hsub
        induction l' with
        | nil => simp
        | cons b l' ih =>
          have ih := ih fun i hi => hsub i (by simp [hi])
          cases hgb : gkpSet ps' b with
          | true =>
            have hb := meanQ_gkp (gs := gs') r.means hgb
            simp only [List.map_cons, List.sum_cons, List.filter_cons, hgb, Bool.not_true, Bool.false_eq_true, if_false,
              if_true, Int.cast_add, Int.cast_mul]
            rw [hb, hok.wI_cast, add_mul]
            linarith
          | false =>
            have hzb := hz b (hsub b (by simp))
            simp only [List.map_cons, List.sum_cons, List.filter_cons, hgb, Bool.not_false, if_true, Bool.false_eq_true,
              if_false, Int.cast_add]
            rw [hzb, hw b hgb]
            linarith
      have := this _ fun i hi => hi
      linarith
    · intro i hil hGi y hy
      rw [hm.contribution (by rw [hpts]; exact hy), hz i hil, meanQ_gkp (gs := gs') r.means hGi]
      push_cast
      ring

end Flamingpy.Noise
