import Verif.Proofs.Macro

/-! # Histories of a macronode layer -/

namespace Flamingpy.Noise

open Flamingpy

variable {P : Type} [DecidableEq P]

/-- The parts that never change. -/
structure Frame (M₀ M : Macro P) : Prop where
  nbrs : M.nbrs = M₀.nbrs
  dict : M.dict = M₀.dict
  centre : M.centre = M₀.centre
  redNodes : M.redNodes = M₀.redNodes

theorem MacroOk.transport {M₀ M : Macro P} {cs : List P} (h : MacroOk M₀ cs) {n : ℕ} {ps gs : List ℕ}
    (hi : Inv M₀.layer M.layer n ps gs) (hf : Frame M₀ M) : MacroOk M cs := by
  have hadj : ∀ i j, M.layer.adj i j = M₀.layer.adj ⟨i.val, by rw [← hi.pts]; exact i.isLt⟩ ⟨j.val, by rw [← hi.pts]; exact j.isLt⟩ :=
    fun i j => hi.adj i.val j.val (by rw [← hi.pts]; exact i.isLt) (by rw [← hi.pts]; exact j.isLt) i.isLt j.isLt
  refine ⟨by rw [hi.pts]; exact h.nodup, by rw [hi.pts]; exact h.len, h.nonempty, h.csNodup, ?_, ?_, ?_, ?_, ?_, ?_, ?_,
    hi.order.trans h.order, by rw [hi.delta]; exact h.delta⟩
  · rw [hi.pts, hf.centre]; exact h.centre
  · rw [hi.pts, hf.centre, hf.dict]; exact h.dict
  · rw [hf.redNodes]; exact h.red
  · rw [hi.pts, hf.nbrs]; exact h.nbrs
  · rw [hi.pts, hf.nbrs]; exact h.sym
  · intro i j hij
    rw [hadj]
    apply h.adj0
    simpa only [Fin.getElem_fin, hi.pts, hf.nbrs] using hij
  · intro i j hij
    rw [hadj]
    apply h.adj1
    simpa only [Fin.getElem_fin, hi.pts, hf.nbrs] using hij

/-- The weights stay the same. -/
theorem wI_transport {M₀ M : Macro P} {n : ℕ} {ps gs : List ℕ}
    (hi : Inv M₀.layer M.layer n ps gs) (hf : Frame M₀ M) (j : ℕ) : wI M j = wI M₀ j := by
  have hnb : nbI M j = nbI M₀ j := by unfold nbI; rw [hi.pts, hf.nbrs]
  have hl : M.layer.pts.length = M₀.layer.pts.length := by rw [hi.pts]
  unfold wI
  by_cases hj : j < M.layer.pts.length
  · rw [dif_pos hj, dif_pos (by omega), hnb]
    cases nbI M₀ j with
    | none => rfl
    | some i =>
      simp only [Option.elim_some]
      by_cases hi' : i < M.layer.pts.length
      · rw [dif_pos hi', dif_pos (by omega)]
        exact hi.adj i j (by omega) (by omega) hi' hj
      · rw [dif_neg hi', dif_neg (by omega)]
  · rw [dif_neg hj, dif_neg (by omega)]

/-- The indices labelled GKP. -/
def gkpSet (ps : List ℕ) (i : ℕ) : Bool := decide (i ∉ ps)

/-- Position of a GKP mode in units of √π. -/
def bitOf (r : Rnd) (gs : List ℕ) (i : ℕ) : ℤ := if i ∈ gs then r.b i else 0

theorem meanQ_gkp (r : Rnd) {ps gs : List ℕ} {i : ℕ} (h : gkpSet ps i = true) :
    meanQ r ps gs i = bitOf r gs i * √Real.pi := by
  unfold gkpSet at h
  simp only [decide_eq_true_eq] at h
  unfold meanQ bitOf
  split_ifs <;> simp

/-- The deviation of the outcome of the `k`-th star. -/
noncomputable def starNoise (L : Layer P) (perm : List ℕ) (z : ℕ → ℝ) (k : ℕ) : ℝ :=
  devOf L (perm.getD (4 * k) 0) * z ((every4 perm).idxOf (perm.getD (4 * k) 0))

/-- The deviation of the processed outcome of mode `i`. -/
noncomputable def zNoise (L : Layer P) (perm : List ℕ) (z : ℕ → ℝ) (i : ℕ) : ℝ :=
  zOf (fun t => devOf L (perm.getD (4 * (i / 4) + t) 0) * z ((notEvery4 perm).idxOf (perm.getD (4 * (i / 4) + t) 0)))
    (perm.idxOf i % 4)

/-- One application of noise succeeds; what it leaves behind. -/
theorem run_spec {M₀ M : Macro P} {cs : List P} (hok : MacroOk M₀ cs) {n : ℕ} {ps₀ gs₀ : List ℕ}
    (hi : Inv M₀.layer M.layer n ps₀ gs₀) (hh : Hist M₀.layer n M.layer) (hf : Frame M₀ M) (r : MacroRnd)
    (hdraw : ∀ i ∈ r.draw, i < M.layer.pts.length) (he : r.empty.length = 2 * M.layer.pts.length) :
    ∃ M' ps gs, macroApply M r = some M' ∧ Inv M₀.layer M'.layer (n + 1) ps gs ∧ Hist M₀.layer (n + 1) M'.layer ∧
      Frame M₀ M' ∧ M'.perm = permOf (gkpSet ps) cs.length ∧
      (∀ k c, cs[k]? = some c → M'.redState c = some (if gkpSet ps (starOf (gkpSet ps) k) then "GKP" else "p")) ∧
      ∃ σ q starP, Measured M' cs σ (gkpSet ps) q starP ∧
        (∀ k < cs.length, σ (4 * k) = starOf (gkpSet ps) k) ∧
        (∀ k c, cs[k]? = some c → ∃ a, M'.redBit c = some (finalBit a) ∧
          M'.redProb c = some (finalProb M'.layer.delta a) ∧ Reduced M' σ (gkpSet ps) q starP k a) ∧
        ps = nextP M.layer r.draw ps₀ ∧ gs = compl M.layer.pts.length (ps ++ gs₀) ∧
        (∀ k < cs.length, 2 * starP k = ((([0, 1, 2, 3].map fun t => σ (4 * k + t)).filterMap (nbI M')).map
          fun i => wI M₀ i * meanQ r.means ps gs i).sum + 2 * starNoise M₀.layer M'.perm r.p.z k) ∧
        ∀ i < 4 * cs.length, zVal M' q i = meanQ r.means ps gs i - meanQ r.means ps gs (σ (4 * (i / 4))) +
          zNoise M₀.layer M'.perm r.q.z i := by
  have hokM := hok.transport hi hf
  have hlenM := hokM.len
  obtain ⟨L1, hpop, hi1⟩ := hi.next hok.nodup r.draw hdraw
  set ps := nextP M.layer r.draw ps₀ with hps
  set gs := compl M.layer.pts.length (ps ++ gs₀) with hgs
  have hL1p : L1.pts = M.layer.pts := hi1.pts.trans hi.pts.symm
  have hst : L1.states = [("p", ps), ("GKP", gs)] := by
    rcases hi1.states with ⟨_, _, h0⟩ | ⟨h1, _⟩
    · omega
    · exact h1
  have hn0 : 0 < cs.length := List.length_pos_iff.2 hok.nonempty
  have hlab : ∀ i < 4 * cs.length, ∀ p, L1.pts[i]? = some p → L1.attrs.state p = some (if gkpSet ps i then "GKP" else "p") := by
    intro i hil p hp
    obtain ⟨hlt, rfl⟩ := List.getElem?_eq_some_iff.1 hp
    rw [hi1.labels (by omega) i hlt]
    unfold gkpSet
    by_cases h : i ∈ ps <;> simp [h]
  have hgk : ∀ i < 4 * cs.length, isGkp L1 i = some (gkpSet ps i) := by
    intro i hil
    obtain ⟨p, hp, _⟩ := hokM.get hil
    have hp' : L1.pts[i]? = some p := by rw [hL1p]; exact hp
    unfold isGkp
    rw [hp', Option.bind_eq_bind, Option.bind_some, hlab i hil p hp']
    cases gkpSet ps i <;> simp
  have hperm := permuteStarInds_ok L1 hn0 (by rw [hL1p]; exact hlenM) (gkpSet ps) hgk
  set perm := permOf (gkpSet ps) cs.length with hpermdef
  have hpp : perm.Perm (List.range (4 * cs.length)) := permOf_perm _ _
  have hpnd : perm.Nodup := hpp.nodup_iff.2 List.nodup_range
  have hplt : ∀ i ∈ perm, i < 4 * cs.length := fun i hi => List.mem_range.1 (hpp.mem_iff.1 hi)
  set σ : ℕ → ℕ := fun j => perm.getD j 0 with hσ
  have hget : ∀ j < 4 * cs.length, perm[j]? = some (σ j) := by
    intro j hj
    rw [hσ]
    simp only
    rw [List.getD, List.getElem?_eq_getElem (by rw [permOf_length]; exact hj)]
    rfl
  have hstar : ∀ k < cs.length, σ (4 * k) = starOf (gkpSet ps) k := by
    intro k hk
    have h1 := hget (4 * k) (by omega)
    rw [hpermdef, starOf_get _ _ _ hk] at h1
    exact (Option.some.inj h1).symm
  have hgroup : ∀ j < 4 * cs.length, σ j / 4 = j / 4 := by
    intro j hj
    have h1 := hget j hj
    have h2 := permOf_get (gkpSet ps) cs.length (j / 4) (j % 4) (by omega) (by omega)
    rw [Nat.div_add_mod, ← hpermdef, h1] at h2
    have := List.mem_of_getElem? h2.symm
    rw [(arrange_perm _ _).mem_iff] at this
    exact mem_row.1 this
  -- labels
  set M1 : Macro P := { M with layer := L1, perm := perm } with hM1
  obtain ⟨fb, fb1, fb2, _⟩ := labelBody_fold perm.zipIdx M1 (by rw [hM1]; simp only; rw [hL1p]; exact hokM.nodup)
    (by rw [List.zipIdx_map_fst]; exact hpnd) (by
      intro e he'
      have : e.1 ∈ perm := by
        have := List.mem_map_of_mem (f := (·.1)) he'
        rwa [List.zipIdx_map_fst] at this
      rw [hM1]; simp only; rw [hL1p, hlenM]
      exact hplt _ this)
  have hinj : ∀ i ∈ every4 perm, ∀ j ∈ every4 perm, ∀ p p', M.layer.pts[i]? = some p → M.layer.pts[j]? = some p' →
      M.centre p = M.centre p' → i = j := by
    intro i hi' j hj' p p' hp hp' hc
    obtain ⟨a, ha0, ha⟩ := mem_every4.1 hi'
    obtain ⟨b, hb0, hb⟩ := mem_every4.1 hj'
    have hal : a < 4 * cs.length := by
      have := (List.getElem?_eq_some_iff.1 ha).1; rwa [permOf_length] at this
    have hbl : b < 4 * cs.length := by
      have := (List.getElem?_eq_some_iff.1 hb).1; rwa [permOf_length] at this
    have hai := Option.some.inj ((hget a hal).symm.trans ha)
    have hbj := Option.some.inj ((hget b hbl).symm.trans hb)
    have c1 := hokM.centre i p hp
    have c2 := hokM.centre j p' hp'
    rw [hc, ← c2] at c1
    have hia : i / 4 = a / 4 := by rw [← hai]; exact hgroup a hal
    have hjb : j / 4 = b / 4 := by rw [← hbj]; exact hgroup b hbl
    rw [List.getElem?_eq_getElem (by omega : i / 4 < cs.length), List.getElem?_eq_getElem (by omega : j / 4 < cs.length)] at c1
    have := hok.csNodup.getElem_inj_iff.1 (Option.some.inj c1)
    have hab : a = b := by omega
    rw [← hai, ← hbj, hab]
  have he4 : ∀ i ∈ every4 perm, i < 4 * cs.length := by
    intro i hi'
    obtain ⟨a, _, ha⟩ := mem_every4.1 hi'
    exact hplt i (List.mem_of_getElem? ha)
  obtain ⟨fr, fr1, fr2⟩ := labelReduced_fold (every4 perm) (M1.withBody fb)
    (fun i => if gkpSet ps i then "GKP" else "p") (by
      intro i hi'
      obtain ⟨p, hp, hpm, hpc⟩ := hokM.get (he4 i hi')
      have hp' : L1.pts[i]? = some p := by rw [hL1p]; exact hp
      exact ⟨p, hp', hlab i (he4 i hi') p hp', hokM.red _ (List.mem_of_getElem? hpc)⟩) (by
      intro i hi' j hj' p p' hp hp' hc
      have e : (M1.withBody fb).layer.pts = M.layer.pts := hL1p
      rw [e] at hp hp'
      exact hinj i hi' j hj' p p' hp hp' hc)
  set M2 : Macro P := (M1.withBody fb).withRed fr with hM2
  have hlabels : applyMacroLabels M1 = some M2 := by
    unfold applyMacroLabels
    have e : M1.perm.zipIdx.foldlM labelBody M1 = some (M1.withBody fb) := fb1
    rw [e]
    exact fr1
  -- measure
  have hM2l : M2.layer = L1 := rfl
  obtain ⟨permuted, L2, m1, m2, m3, m4, m5, m6⟩ := entangle_measure M2 (n := cs.length) (by rw [hM2l, hL1p]; exact hlenM)
    (by rw [hM2l, hL1p]; exact hokM.nodup) (hi1.order.trans hok.order) (by rw [hM2l, hi1.delta]; exact hok.delta) ps gs hst
    hi1.psLt hi1.gsLt σ hpp hget r.empty (by rw [he, hlenM]) r.means r.p r.q
  set M3 : Macro P := { M2 with layer := L2 } with hM3
  have hi2 : Inv M₀.layer L2 (n + 1) ps gs := hi1.same m4
  have hh1 : Hist M₀.layer (n + 1) L1 := .populate r.draw hh hdraw hpop
  have hh2 : Hist M₀.layer (n + 1) L2 := by
    rw [Option.bind_eq_some_iff] at m3
    obtain ⟨L', b1, b2⟩ := m3
    exact .measure _ _ _ _ _ _ _ (.measure _ _ _ _ _ _ _ hh1 b1) b2
  have hf3 : Frame M₀ M3 := ⟨hf.nbrs, hf.dict, hf.centre, hf.redNodes⟩
  have hok3 : MacroOk M3 cs := hok.transport hi2 hf3
  have hL2p : L2.pts = L1.pts := m4.pts
  have hzq := m5
  have hzp := m6
  have hpt : ∀ i < 4 * cs.length, ∃ p, L1.pts[i]? = some p := by
    intro i hil
    obtain ⟨p, hp, _⟩ := hokM.get hil
    exact ⟨p, by rw [hL1p]; exact hp⟩
  have hσlt : ∀ j < 4 * cs.length, σ j < 4 * cs.length := fun j hj => hplt _ (List.mem_of_getElem? (hget j hj))
  have hq0 : ∀ k < cs.length, ∀ t, 1 ≤ t → t < 4 → ∃ v, (∀ p, L1.pts[σ (4 * k + t)]? = some p → L2.attrs.homQ p = some v) ∧
      ∀ h : t < 4, v = ∑ l : Fin 4, CvOps.fourSplitter ⟨t, h⟩ l * meanQ r.means ps gs (σ (4 * k + l)) +
        devOf L1 (σ (4 * k + t)) * r.q.z ((notEvery4 perm).idxOf (σ (4 * k + t))) := by
    intro k hk t h1 h4
    obtain ⟨p, hp⟩ := hpt (σ (4 * k + t)) (hσlt _ (by omega))
    have := hzq k hk ⟨t, h4⟩ (by intro hc; have := congrArg Fin.val hc; simp at this; omega) p hp
    refine ⟨∑ l : Fin 4, CvOps.fourSplitter ⟨t, h4⟩ l * meanQ r.means ps gs (σ (4 * k + l)) +
        devOf L1 (σ (4 * k + t)) * r.q.z ((notEvery4 perm).idxOf (σ (4 * k + t))), fun p' hp' => ?_, fun _ => rfl⟩
    rw [hp] at hp'
    obtain rfl := Option.some.inj hp'
    exact this
  choose! q hq1 hq2 using hq0
  have hp0 : ∀ k < cs.length, ∃ v, (∀ p, L1.pts[σ (4 * k)]? = some p → L2.attrs.homP p = some v) ∧
      v = ∑ l : Fin 4, CvOps.fourSplitter 0 l * ((nbI M3 (σ (4 * k + l))).elim 0 fun i => wI M3 i * meanQ r.means ps gs i) +
        devOf L1 (σ (4 * k)) * r.p.z ((every4 perm).idxOf (σ (4 * k))) := by
    intro k hk
    obtain ⟨p, hp⟩ := hpt (σ (4 * k)) (hσlt _ (by omega))
    have := hzp k hk p hp
    refine ⟨_, fun p' hp' => ?_, rfl⟩
    rw [hp] at hp'
    obtain rfl := Option.some.inj hp'
    rw [this]
    congr 2
    refine Finset.sum_congr rfl fun l _ => ?_
    congr 1
    have hlt : σ (4 * k + l) < L1.pts.length := by
      rw [hL1p, hlenM]; exact hσlt _ (by omega)
    have hlt3 : σ (4 * k + l) < M3.layer.pts.length := by
      rw [show M3.layer.pts = L1.pts from hL2p]; exact hlt
    rw [← hok3.adj_sum (meanQ r.means ps gs) hlt3]
    have hcard : M3.layer.pts.length = M2.layer.pts.length := congrArg List.length hL2p
    refine Finset.sum_bij (fun j _ => ⟨j.val, by rw [hcard]; exact j.isLt⟩) (by simp) ?_ ?_ ?_
    · intro a _ b _ hab
      exact Fin.ext (by simpa using hab)
    · intro b _
      exact ⟨⟨b.val, by rw [← hcard]; exact b.isLt⟩, by simp, rfl⟩
    · intro j _
      have hlt2 : σ (4 * k + l) < M2.layer.pts.length := hlt
      rw [dif_pos hlt2]
      have := m4.adj (σ (4 * k + l)) j.val hlt j.isLt hlt3 (by rw [hcard]; exact j.isLt)
      rw [show M3.layer.adj ⟨σ (4 * k + l), hlt3⟩ ⟨j.val, _⟩ = _ from this]
  choose! starP hp1 hp2 using hp0
  have hmeas : Measured M3 cs σ (gkpSet ps) q starP := by
    refine ⟨hok3, hpp, hget, hgroup, ?_, ?_, ?_, ?_⟩
    · intro j hj p hp
      have hp' : M1.layer.pts[σ j]? = some p := by rw [show M1.layer.pts = L2.pts from hL2p.symm]; exact hp
      exact fb2 (σ j, j) (by rw [List.mk_mem_zipIdx_iff_getElem?]; exact hget j hj) p hp'
    · intro i hil p hp
      have hp' : L1.pts[i]? = some p := by rw [← hL2p]; exact hp
      rw [show M3.layer.attrs.state = L1.attrs.state from m4.state]
      exact hlab i hil p hp'
    · intro k hk t h1 h4 p hp
      exact hq1 k hk t h1 h4 p (by rw [← hL2p]; exact hp)
    · intro k hk p hp
      exact hp1 k hk p (by rw [← hL2p]; exact hp)
  obtain ⟨f, g, red1, red2⟩ := hmeas.reduceAll cs.length le_rfl
  refine ⟨M3.withBits f g, ps, gs, ?_, hi2, hh2, ⟨hf3.nbrs, hf3.dict, hf3.centre, hf3.redNodes⟩, rfl, ?_, σ, q, starP, hmeas.withBits f g, hstar, ?_, rfl, rfl, ?_, ?_⟩
  · unfold macroApply
    rw [hpop]
    simp only [Option.bind_eq_bind, Option.bind_some]
    rw [hperm]
    simp only [Option.bind_some]
    rw [show applyMacroLabels { M with layer := L1, perm := perm } = some M2 from hlabels]
    simp only [Option.bind_some]
    rw [m1]
    simp only [Option.bind_some]
    rw [show macroMeasure M2 permuted r.empty r.p r.q = some M3 from m2]
    simp only [Option.bind_some]
    have e : M3.layer.pts.length / 4 = cs.length := by rw [hok3.len]; omega
    rw [e]
    exact red1
  · intro k c hkc
    have hk : k < cs.length := (List.getElem?_eq_some_iff.1 hkc).1
    have hm : starOf (gkpSet ps) k ∈ every4 perm :=
      mem_every4.2 ⟨4 * k, by omega, starOf_get _ _ _ hk⟩
    obtain ⟨p, hp, _, hpc⟩ := hokM.get (he4 _ hm)
    rw [starOf_mem, hkc] at hpc
    have := fr2 _ hm p (by rw [show (M1.withBody fb).layer.pts = M.layer.pts from hL1p]; exact hp)
    rw [show (M1.withBody fb).centre = M.centre from rfl, ← Option.some.inj hpc] at this
    exact this
  · intro k c hkc
    have hk : k < cs.length := (List.getElem?_eq_some_iff.1 hkc).1
    obtain ⟨a, a1, a2, a3⟩ := red2 k hk c hkc
    exact ⟨a, a1, a2, a3.outcome, a3.gkpZ, a3.pErr, a3.pErr', a3.numP⟩
  · intro k hk
    rw [hp2 k hk]
    have hw3 : ∀ i, wI M3 i = wI M₀ i := wI_transport hi2 hf3
    simp only [hw3]
    have hfs : ∑ l : Fin 4, CvOps.fourSplitter 0 l * ((nbI M3 (σ (4 * k + l))).elim 0 fun i => wI M₀ i * meanQ r.means ps gs i) =
        (((([0, 1, 2, 3].map fun t => σ (4 * k + t)).filterMap (nbI (M3.withBits f g))).map
          fun i => wI M₀ i * meanQ r.means ps gs i).sum) / 2 := by
      have hnb : nbI (M3.withBits f g) = nbI M3 := rfl
      rw [hnb]
      have hsum : ∀ l : List ℕ, ((l.filterMap (nbI M3)).map fun i => wI M₀ i * meanQ r.means ps gs i).sum =
          (l.map fun i => (nbI M3 i).elim 0 fun i => wI M₀ i * meanQ r.means ps gs i).sum := by
        intro l
        induction l with
        | nil => rfl
        | cons a l ih =>
          rw [List.filterMap_cons, List.map_cons, List.sum_cons, ← ih]
          cases nbI M3 a with
          | none => simp
          | some b => simp
      rw [hsum]
      simp [Fin.sum_univ_four, CvOps.fourSplitter]
      ring
    rw [hfs]
    have hsn : starNoise M₀.layer (M3.withBits f g).perm r.p.z k =
        devOf L1 (σ (4 * k)) * r.p.z ((every4 perm).idxOf (σ (4 * k))) := by
      unfold starNoise devOf
      rw [hi1.perfect, hi1.delta]
      rfl
    rw [hsn]
    ring
  · intro i hil
    obtain ⟨t, ht, hσt, hlt⟩ := hmeas.surj hil
    have hk : i / 4 < cs.length := by omega
    have hidx : (M3.withBits f g).perm.idxOf i % 4 = t := by
      have e := hmeas.idx hlt
      rw [hσt] at e
      rw [show (M3.withBits f g).perm = M3.perm from rfl, e]
      omega
    have hzv : zVal (M3.withBits f g) q i = zOf (q (i / 4)) t := by
      unfold zVal
      rw [hidx]
    rw [hzv]
    have := zOf_exact (fun l => meanQ r.means ps gs (σ (4 * (i / 4) + l)))
      (fun t => devOf L1 (σ (4 * (i / 4) + t)) * r.q.z ((notEvery4 perm).idxOf (σ (4 * (i / 4) + t)))) (q (i / 4)) (by
        intro t ht0
        have h1 : 1 ≤ t.val := by
          have : t.val ≠ 0 := fun h => ht0 (Fin.ext h)
          omega
        exact hq2 (i / 4) hk t.val h1 t.isLt t.isLt) ⟨t, ht⟩
    simp only [Fin.val_zero, add_zero, hσt] at this
    rw [this]
    congr 1
    unfold zNoise devOf
    rw [hi1.perfect, hi1.delta, hidx]
    rfl

theorem starNoise_le {L : Layer P} (perm : List ℕ) {z : ℕ → ℝ} {eps : ℝ} (h : ∀ k, |√(L.delta / 2) * z k| ≤ eps) (k : ℕ) :
    |starNoise L perm z k| ≤ eps := by
  unfold starNoise devOf
  split_ifs
  · rw [zero_mul, abs_zero]; exact (abs_nonneg _).trans (h 0)
  · exact h _

theorem zNoise_le {L : Layer P} (perm : List ℕ) {z : ℕ → ℝ} {eps : ℝ} (h : ∀ k, |√(L.delta / 2) * z k| ≤ eps) (i : ℕ) :
    |zNoise L perm z i| ≤ 2 * eps := by
  have e0 : 0 ≤ eps := (abs_nonneg _).trans (h 0)
  have hd : ∀ i m, |devOf L i * z m| ≤ eps := by
    intro i m
    unfold devOf
    split_ifs
    · rw [zero_mul, abs_zero]; exact e0
    · exact h m
  unfold zNoise
  set e := fun t => devOf L (perm.getD (4 * (i / 4) + t) 0) * z ((notEvery4 perm).idxOf (perm.getD (4 * (i / 4) + t) 0)) with he
  have h1 := abs_le.1 (hd _ _ : |e 1| ≤ eps)
  have h2 := abs_le.1 (hd _ _ : |e 2| ≤ eps)
  have h3 := abs_le.1 (hd _ _ : |e 3| ≤ eps)
  rw [abs_le]
  unfold zOf
  split <;> constructor <;> linarith

end Flamingpy.Noise
