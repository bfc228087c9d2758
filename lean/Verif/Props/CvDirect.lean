import Verif.Model.CvDirect
import Verif.Props.EGraph
import Verif.Props.Noise

/-!
# C89: a `CVLayer` made for an `EGraph` directly
-/

namespace Flamingpy.CvDirect

open Flamingpy EGraph Noise

/-- The layer is up to date with the graph `g`: its modes are the nodes, each once; entry `(i, j)` of its matrix is the weight
of the edge between the `i`-th and the `j`-th node (0 if there is none); the ideal modes are the given points. -/
structure UpToDate (g : EG) (perfectPoints : Option (List Pt)) (d : Direct) : Prop where
  perm : d.lay.pts.Perm g.nodes
  rows : d.rows.length = d.lay.pts.length
  adj : ∀ i j : Fin d.lay.pts.length, ∃ w : ℤ, IsWeight g d.lay.pts[i] d.lay.pts[j] w ∧ d.lay.adj i j = w
  perfect : ∀ i (hi : i < d.lay.pts.length), i ∈ d.lay.perfect ↔ d.lay.pts[i] ∈ perfectPoints.getD []

theorem pointsInOrder_spec {tp : List (ℕ × Pt)} {n : ℕ} {pts : List Pt} (h : pointsInOrder tp n = some pts) :
    pts.length = n ∧ ∀ i (hi : i < pts.length), PyDict.get? tp i = some pts[i] := by
  unfold pointsInOrder at h
  rw [mapM_some_iff] at h
  have hl : pts.length = n := by simpa using (congrArg List.length h).symm
  refine ⟨hl, fun i hi => ?_⟩
  have := congrArg (fun l => l[i]?) h
  simp only [List.getElem?_map, List.getElem?_range (hl ▸ hi), List.getElem?_eq_getElem hi, Option.map_some,
    Option.some.injEq] at this
  exact this

/-- What the constructor does once the matrix is there. -/
theorem make_ok {g g' : EG} {rows : List (List ℤ)} (ha : adjGenerator g = (.ok rows, g')) (hc : Coherent g')
    (hadj : IsAdjacency g' rows) (hnd : g'.nodes.Nodup) (a : Attrs Pt) (perfectPoints : Option (List Pt))
    (hp : ∀ p ∈ perfectPoints.getD [], p ∈ g'.nodes) (delta : ℝ) (pSwap : Option ℝ) (order : Order)
    {supplied : Option (List (String × List ℕ))} {states : List (String × List ℕ)}
    (hs : initStates pSwap supplied = some states) :
    ∃ d, make g a perfectPoints delta pSwap order supplied = (some d, g') ∧ UpToDate g' perfectPoints d ∧
      d.code = none ∧ d.graph = g' ∧ d.lay.delta = delta ∧ d.lay.pSwap = pSwap ∧ d.lay.order = order ∧
      d.lay.states = states ∧ d.lay.attrs = a ∧ ∀ i (hi : i < d.lay.pts.length), HasPoint g' i d.lay.pts[i] := by
  obtain ⟨c1, c2, c3, c4⟩ := hc
  obtain ⟨ti, hti⟩ := Option.isSome_iff_exists.mp c1
  obtain ⟨tp, htp⟩ := Option.isSome_iff_exists.mp c2
  obtain ⟨a1, a2⟩ := hadj
  have hex : ∀ i < g'.nodes.length, ∃ p, PyDict.get? tp i = some p := by
    intro i hi
    obtain ⟨_, _, _, k⟩ := a2 i hi
    obtain ⟨p, _, _, ⟨t, ht, hpt⟩, _⟩ := k i hi
    rw [htp] at ht; cases ht
    exact ⟨p, hpt⟩
  have hpts : ∃ pts, pointsInOrder tp g'.nodes.length = some pts := by
    choose! f hf using hex
    refine ⟨(List.range g'.nodes.length).map f, ?_⟩
    unfold pointsInOrder
    rw [mapM_some_iff, List.map_map]
    exact List.map_congr_left fun i hi => hf i (List.mem_range.mp hi)
  obtain ⟨pts, hpts⟩ := hpts
  obtain ⟨hl, hget⟩ := pointsInOrder_spec hpts
  have hpoint : ∀ i (hi : i < pts.length), HasPoint g' i pts[i] := fun i hi => ⟨tp, htp, hget i hi⟩
  have hindex : ∀ i (hi : i < pts.length), HasIndex g' pts[i] i := fun i hi => (c3 _ _).mpr (hpoint i hi)
  have hinj : pts.Nodup := by
    rw [List.nodup_iff_injective_get]
    intro x y hxy
    obtain ⟨t, ht, e1⟩ := hindex x x.isLt
    obtain ⟨t', ht', e2⟩ := hindex y y.isLt
    rw [ht] at ht'; cases ht'
    have hxy' : pts[x.val] = pts[y.val] := by simpa using hxy
    rw [hxy', e2] at e1
    exact Fin.ext (Option.some.inj e1).symm
  have hsub : ∀ p ∈ pts, p ∈ g'.nodes := by
    intro p hp
    obtain ⟨i, hi, rfl⟩ := List.getElem_of_mem hp
    exact (c4 _).mpr ⟨i, hindex i hi⟩
  have hperm : pts.Perm g'.nodes :=
    (List.subperm_of_subset hinj hsub).perm_of_length_le hl.ge
  -- the ideal modes
  have hperf : ∃ perfect, (perfectPoints.getD []).mapM (fun p => g'.toIndices.bind fun d => PyDict.get? d p) = some perfect ∧
      ∀ i (hi : i < pts.length), i ∈ perfect ↔ pts[i] ∈ perfectPoints.getD [] := by
    have h1 : ∀ p ∈ perfectPoints.getD [], ∃ i, PyDict.get? ti p = some i := by
      intro p hp'
      obtain ⟨i, t, ht, hi⟩ := (c4 p).mp (hp p hp')
      rw [hti] at ht; cases ht
      exact ⟨i, hi⟩
    choose! f hf using h1
    refine ⟨(perfectPoints.getD []).map f, ?_, ?_⟩
    · rw [mapM_some_iff, List.map_map]
      exact List.map_congr_left fun p hp' => by rw [hti]; exact hf p hp'
    · intro i hi
      rw [List.mem_map]
      constructor
      · rintro ⟨p, hp', rfl⟩
        have e1 : HasPoint g' (f p) p := (c3 _ _).mp ⟨ti, hti, hf p hp'⟩
        obtain ⟨t, ht, e1⟩ := e1
        obtain ⟨t', ht', e2⟩ := hpoint (f p) hi
        rw [ht] at ht'; cases ht'
        rw [e1] at e2
        rw [← Option.some.inj e2]
        exact hp'
      · intro hm
        refine ⟨_, hm, ?_⟩
        obtain ⟨t, ht, e2⟩ := hindex i hi
        rw [hti] at ht; cases ht
        have := hf _ hm
        rw [e2] at this
        exact (Option.some.inj this).symm
  obtain ⟨perfect, hperf, hperf'⟩ := hperf
  refine ⟨{ graph := g', rows, code := none, lay := ⟨pts, fun i j =>
    (((rows[i.val]?.bind fun row => row[j.val]?).getD 0 : ℤ) : ℝ), delta, pSwap, order, perfect, states, a⟩ }, ?_, ?_⟩
  · unfold make
    rw [ha]
    simp only [htp, Option.getD_some, hpts, hperf, hs]
    rfl
  · refine ⟨⟨hperm, by rw [a1, hl], ?_, hperf'⟩, rfl, rfl, rfl, rfl, rfl, rfl, rfl, hpoint⟩
    intro i j
    obtain ⟨row, r1, _, k⟩ := a2 i (hl ▸ i.isLt)
    obtain ⟨p, q, w, ⟨t, ht, e1⟩, ⟨t', ht', e2⟩, e3, e4⟩ := k j (hl ▸ j.isLt)
    rw [htp] at ht ht'; cases ht; cases ht'
    rw [hget i i.isLt] at e1; cases e1
    rw [hget j j.isLt] at e2; cases e2
    refine ⟨w, e4, ?_⟩
    dsimp only
    rw [r1, Option.bind_some, e3, Option.getD_some]

/-- The constructor accepts every non-empty graph whose matrix can be generated (for graphs without macronodes made by networkx
and the methods of the class), unless both a swap-out probability and p-squeezed indices are given; the layer is up to date with the
graph, whose nodes and edges are not changed. -/
theorem C89_constructor {g₀ g : EG} (h : EGraph.Fresh g₀) (hr : Reach CleanAdmissible g₀ g) {rows : List (List ℤ)}
    (ha : (adjGenerator g).1 = .ok rows) (hne : g.nodes ≠ []) (a : Attrs Pt) (perfectPoints : Option (List Pt))
    (hp : ∀ p ∈ perfectPoints.getD [], p ∈ g.nodes) (delta : ℝ) (pSwap : Option ℝ) (order : Order)
    (supplied : Option (List (String × List ℕ))) :
    (make g a perfectPoints delta pSwap order supplied).2.nodes = g.nodes ∧
    (make g a perfectPoints delta pSwap order supplied).2.edges = g.edges ∧
    (initStates pSwap supplied = none → (make g a perfectPoints delta pSwap order supplied).1 = none) ∧
    ∀ states, initStates pSwap supplied = some states →
      ∃ d, (make g a perfectPoints delta pSwap order supplied).1 = some d ∧ UpToDate g perfectPoints d ∧
        d.code = none ∧ d.graph.nodes = g.nodes ∧ d.lay.delta = delta ∧ d.lay.pSwap = pSwap ∧ d.lay.order = order ∧
        d.lay.states = states ∧ d.lay.attrs = a := by
  obtain ⟨h1, h2⟩ := C18_adjacency_partial h hr
  obtain ⟨h1, hn, he⟩ := h1 rows ha
  have hag : adjGenerator g = (.ok rows, (adjGenerator g).2) := Prod.ext ha rfl
  have hinv : Inv (adjGenerator g).2 := inv_adjGenerator (inv_reach h (hr.mono fun _ _ hx => hx.1))
  have hsnd : (make g a perfectPoints delta pSwap order supplied).2 = (adjGenerator g).2 := by
    unfold make; rw [hag]
  have hc : Coherent (adjGenerator g).2 := by
    refine coherent_of_inv hinv ?_
    rcases hinv.idx with ⟨_, hnone⟩ | ⟨ti, hti, _⟩
    · exfalso
      have hpos : 0 < (adjGenerator g).2.nodes.length := by rw [hn]; exact List.length_pos_iff.mpr hne
      obtain ⟨_, _, _, k⟩ := h1.2 0 hpos
      obtain ⟨_, _, _, ⟨t, ht, _⟩, _⟩ := k 0 hpos
      rw [hnone] at ht; cases ht
    · rw [hti]; rfl
  refine ⟨by rw [hsnd, hn], by rw [hsnd, he], fun hs => ?_, fun states hs => ?_⟩
  · unfold make
    rw [hag]
    simp only [hs]
    cases pointsInOrder ((adjGenerator g).2.toPoints.getD []) (adjGenerator g).2.nodes.length with
    | none => rfl
    | some pts =>
      cases (perfectPoints.getD []).mapM (fun p => (adjGenerator g).2.toIndices.bind fun d => PyDict.get? d p) with
      | none => simp
      | some perfect => rfl
  · obtain ⟨d, hd, hu, hcode, hg, r1, r2, r3, r4, r5, _⟩ := make_ok hag hc h1 hinv.nd
      a perfectPoints (by rw [hn]; exact hp) delta pSwap order hs
    refine ⟨d, by rw [hd], ⟨hn ▸ hu.perm, hu.rows, ?_, hu.perfect⟩, hcode, by rw [hg, hn], r1, r2, r3, r4, r5⟩
    intro i j
    obtain ⟨w, hw, e⟩ := hu.adj i j
    refine ⟨w, ?_, e⟩
    unfold IsWeight at hw ⊢
    rwa [he] at hw

/-- On a new graph the modes are numbered in the lexicographic order of the positions. -/
theorem C89_sorted {g : EG} (h : EGraph.Fresh g) (hm : g.macronodes = false) (a : Attrs Pt) (perfectPoints : Option (List Pt))
    (hp : ∀ p ∈ perfectPoints.getD [], p ∈ g.nodes) (delta : ℝ) (pSwap : Option ℝ) (order : Order)
    (supplied : Option (List (String × List ℕ))) {states : List (String × List ℕ)}
    (hs : initStates pSwap supplied = some states) :
    ∃ d, (make g a perfectPoints delta pSwap order supplied).1 = some d ∧ UpToDate g perfectPoints d ∧
      d.lay.pts.Pairwise PtLt := by
  obtain ⟨t, g1, hi, ht, hn1, he1, _, _, hlt, hpi, _⟩ := C15_index_generator h hm
  obtain ⟨rows, g', ha, hn, he, hc, hadj, _⟩ := C16_adj_generator h hm
  obtain ⟨tp1, htp1⟩ : ∃ d, g1.toPoints = some d := by
    have : g1 = (indexGenerator g).2 := by rw [hi]
    rw [this]
    have hinv := inv_indexGenerator (h.inv)
    rcases hinv.idx with ⟨c, _⟩ | ⟨_, _, e, _⟩
    · rw [← this, ht] at c; cases c
    · exact ⟨_, e⟩
  have hm1 : g1.adjMat = none := by
    have : g1 = (indexGenerator g).2 := by rw [hi]
    rcases indexGenerator_none h.inv h.no_indices with ⟨e, _, hc, _⟩ | ⟨l, hl, _, _, he⟩
    · rw [hm] at hc; cases hc
    · rw [this, he]; exact h.no_matrix
  have hg' : g'.toPoints = g1.toPoints := by
    have e1 := adjGenerator_eq_of_index h.no_matrix h.no_points hi htp1 hm1
    have hinv1 : Inv g1 := by
      have : g1 = (indexGenerator g).2 := by rw [hi]
      rw [this]; exact inv_indexGenerator h.inv
    rcases adjGenerator_indexed hinv1 hm1 htp1 with ⟨hbad, _⟩ | ⟨a, hok, _⟩
    · rw [e1, hbad] at ha; cases ha
    · rw [e1, hok] at ha
      have e2 := (Prod.ext_iff.mp ha).2
      simp only at e2
      rw [← e2]
  obtain ⟨d, hd, hu, _, _, _, _, _, _, _, hpt⟩ := make_ok ha hc hadj (hn ▸ h.nodes_nodup) a perfectPoints
    (by rw [hn]; exact hp) delta pSwap order hs
  refine ⟨d, by rw [hd], ⟨hn ▸ hu.perm, hu.rows, ?_, hu.perfect⟩, ?_⟩
  · intro i j
    obtain ⟨w, hw, e⟩ := hu.adj i j
    refine ⟨w, ?_, e⟩
    unfold IsWeight at hw ⊢
    rwa [he] at hw
  · rw [List.pairwise_iff_getElem]
    intro i j hi' hj' hij
    have key : ∀ k (hk : k < d.lay.pts.length), HasIndex g1 d.lay.pts[k] k := by
      intro k hk
      rw [hpi]
      obtain ⟨t, ht, e⟩ := hpt k hk
      exact ⟨t, hg' ▸ ht, e⟩
    exact (hlt _ _ _ _ (key i hi') (key j hj')).mpr hij

/-! ### What does not work without a code -/

/-- On a graph given directly `apply_noise`, `measure_syndrome` and `inner_decoder` always raise, whatever was done before. -/
theorem C89_no_code (d : Direct) (h : d.code = none) (draw : List ℕ) (r : Rnd) :
    (applyNoiseD d draw r).1 = false ∧ measureSyndromeD d r = none ∧ innerDecoderD d = none := by
  have h1 : ∀ d : Direct, d.code = none → measureSyndromeD d r = none := fun d h => by
    unfold measureSyndromeD; rw [h]; rfl
  refine ⟨?_, h1 d h, by unfold innerDecoderD; rw [h]; rfl⟩
  unfold applyNoiseD
  cases hp : populateD d draw with
  | none => rfl
  | some d' =>
    have : d'.code = none := by
      unfold populateD at hp
      cases hq : populate d.lay draw with
      | none => rw [hq] at hp; cases hp
      | some l =>
        rw [hq, Option.bind_some] at hp
        split at hp
        · cases hp; exact h
        · cases hp
    simp only [h1 d' this]

/-- `populate_states` of a new layer whose nodes are all still there. -/
theorem populateD_fresh (d : Direct) (hf : Noise.Fresh d.lay) (hn : ∀ p ∈ d.lay.pts, p ∈ d.graph.nodes) (draw : List ℕ)
    (hd : ∀ i ∈ draw, i < d.lay.pts.length) :
    ∃ st ps gs, populateD d draw = some { d with
        lay := { d.lay with states := [("p", ps), ("GKP", gs)], attrs := { d.lay.attrs with state := st } } } ∧
      (∀ i ∈ ps, i < d.lay.pts.length) ∧ (∀ i, i ∈ gs ↔ i < d.lay.pts.length ∧ i ∉ ps) ∧
      (∀ i (hi : i < d.lay.pts.length), st d.lay.pts[i] = some (if i ∈ ps then "p" else "GKP")) := by
  obtain ⟨hnd, ps, hs, hps⟩ := hf
  have hnext := nextP_lt hd hps
  have hpop := populate_spec d.lay ps [] draw (Or.inl ⟨hs, rfl⟩) hnext
  rw [List.append_nil] at hpop
  obtain ⟨st, hpop⟩ : ∃ st, populate d.lay draw = some ((d.lay.withStates [("p", nextP d.lay draw ps),
      ("GKP", compl d.lay.pts.length (nextP d.lay draw ps))]).withState st) := ⟨_, hpop⟩
  obtain ⟨qs, hq1, hq2⟩ := C46_labels ⟨hnd, ps, hs, hps⟩ (Hist.populate draw .start hd hpop) le_rfl
  have hqs : nextP d.lay draw ps = qs := Option.some.inj hq1
  refine ⟨st, nextP d.lay draw ps, compl d.lay.pts.length (nextP d.lay draw ps), ?_, hnext, fun i => mem_compl, ?_⟩
  · unfold populateD
    rw [hpop, Option.bind_some, if_pos]
    · rfl
    · intro e _ i _ p hp
      exact hn p (List.mem_of_getElem? hp)
  · intro i hi
    rw [hqs]
    exact hq2 i hi

/-- ... nevertheless the first `apply_noise` labels every node, and changes no outcome and no bit. -/
theorem C89_apply_noise (d : Direct) (h : d.code = none) (hf : Noise.Fresh d.lay) (hn : ∀ p ∈ d.lay.pts, p ∈ d.graph.nodes)
    (draw : List ℕ) (hd : ∀ i ∈ draw, i < d.lay.pts.length) (r : Rnd) :
    ∃ d' ps, applyNoiseD d draw r = (false, d') ∧ populateD d draw = some d' ∧ d'.lay.pInds = some ps ∧
      (∀ i (hi : i < d.lay.pts.length), d'.lay.attrs.state d.lay.pts[i] = some (if i ∈ ps then "p" else "GKP")) ∧
      d'.lay.attrs.homQ = d.lay.attrs.homQ ∧ d'.lay.attrs.homP = d.lay.attrs.homP ∧ d'.lay.attrs.bit = d.lay.attrs.bit := by
  obtain ⟨st, ps, gs, hp, _, _, hl⟩ := populateD_fresh d hf hn draw hd
  refine ⟨_, ps, ?_, hp, rfl, hl, rfl, rfl, rfl⟩
  unfold applyNoiseD
  rw [hp]
  simp only [measureSyndromeD, h, Option.bind_none]

/-! ### Measuring by hand -/

/-- All getters of a layer whose nodes are all there. -/
theorem getAll_all {α : Type} (d : Direct) (hn : ∀ p ∈ d.lay.pts, p ∈ d.graph.nodes) (f : Pt → Option α) :
    getAll d none f = some (d.lay.pts.map f) := by
  unfold getAll
  rw [mapM_some_iff, Option.getD_none]
  apply List.ext_getElem
  · simp
  · intro i h1 h2
    simp only [List.getElem_map, List.getElem_range]
    have hi : i < d.lay.pts.length := by simpa using h1
    rw [List.getElem?_eq_getElem hi, Option.bind_some, if_pos (hn _ (List.getElem_mem hi))]

/-- The quadratures before the CZ gates, in the initial order: independent noise in every mode, none in an ideal one. -/
noncomputable def noise (d : Direct) (perfectPoints : Option (List Pt)) (ps gs : List ℕ) (z : ℕ → ℝ) :
    Fin d.lay.pts.length ⊕ Fin d.lay.pts.length → ℝ
  | .inl i => (if d.lay.pts[i] ∈ perfectPoints.getD [] then 0 else sdQ d.lay.delta ps gs i) * z i
  | .inr i => (if d.lay.pts[i] ∈ perfectPoints.getD [] then 0 else sdP d.lay.delta ps gs i) * z (d.lay.pts.length + i)

/-- `SCZ()` of a layer that is up to date: position quadratures stay, momentum quadratures get the position quadratures of the
neighbours, times the weights of the edges. -/
theorem C89_scz {g : EG} {perfectPoints : Option (List Pt)} {d : Direct} (h : UpToDate g perfectPoints d)
    (i j : Fin d.lay.pts.length) :
    scz d (.inl i) (.inl j) = (if i = j then 1 else 0) ∧ scz d (.inl i) (.inr j) = 0 ∧
    scz d (.inr i) (.inr j) = (if i = j then 1 else 0) ∧
    ∃ w : ℤ, IsWeight g d.lay.pts[i] d.lay.pts[j] w ∧ scz d (.inr i) (.inl j) = w := by
  refine ⟨?_, rfl, ?_, ?_⟩
  · simp [scz, CvOps.sczMat, Matrix.one_apply]
  · simp [scz, CvOps.sczMat, Matrix.one_apply]
  · exact h.adj i j

/-- Populating a new layer (in the initial order) and measuring a quadrature of all modes records the entangled noise, in the order of the
indices; the other quadrature and the bits are left alone. -/
theorem C89_measure {g : EG} {perfectPoints : Option (List Pt)} {d : Direct} (hu : UpToDate g perfectPoints d)
    (hf : Noise.Fresh d.lay) (hn : ∀ p ∈ d.lay.pts, p ∈ d.graph.nodes) (ho : d.lay.order = .initial)
    (hdelta : 0 < d.lay.delta) (draw : List ℕ) (hd : ∀ i ∈ draw, i < d.lay.pts.length) (quad : Quad)
    (isArray propagate : Bool) (r : Rnd) :
    ∃ d₁ d₂ ps gs, populateD d draw = some d₁ ∧ d₁.lay.pInds = some ps ∧ d₁.lay.gkpInds = some gs ∧
      measureD d₁ quad none isArray none none propagate r = some d₂ ∧
      homOutcomes d₂ none quad = some (List.ofFn fun i => some ((scz d).mulVec (noise d perfectPoints ps gs r.z)
        (match quad with
          | .q => .inl i
          | .p => .inr i))) ∧
      (∀ quad', quad' ≠ quad → homOutcomes d₂ none quad' = homOutcomes d none quad') ∧
      bitValues d₂ none = bitValues d none := by
  obtain ⟨st, ps, gs, hp, hps, hgs, hl⟩ := populateD_fresh d hf hn draw hd
  set L₁ : Layer Pt := { d.lay with states := [("p", ps), ("GKP", gs)], attrs := { d.lay.attrs with state := st } } with hL₁
  obtain ⟨L₂, hm, h1, h2, h3⟩ := C53_initial L₁ hf.1 ps gs rfl ho hdelta hps (fun i hi => ((hgs i).mp hi).1) quad
    (List.range L₁.pts.length) false (fun i hi => List.mem_range.mp hi) propagate r
  have hm' : measureHom L₁ quad none isArray none none propagate r = some L₂ := by
    rw [← hm]
    simp [measureHom]
  obtain ⟨hsame, hbit⟩ := measureHom_same hm'
  have hpts : L₂.pts = d.lay.pts := hsame.pts
  have hn₂ : ∀ p ∈ L₂.pts, p ∈ d.graph.nodes := by rw [hpts]; exact hn
  refine ⟨_, { d with lay := L₂ }, ps, gs, hp, rfl, rfl, ?_, ?_, ?_, ?_⟩
  · unfold measureD
    rw [if_neg, if_pos, hm']
    · rfl
    · intro i _ p hp'
      exact hn p (List.mem_of_getElem? hp')
    · rintro ⟨_, hc⟩
      exact hc hu.rows
  · have hq : homOutcomes { d with lay := L₂ } none quad = some (L₂.pts.map (L₂.attrs.hom quad)) := by
      unfold homOutcomes
      cases quad <;> exact getAll_all { d with lay := L₂ } hn₂ _
    rw [hq]
    congr 1
    rw [hpts]
    apply List.ext_getElem
    · simp
    intro i hi1 hi2
    have hi : i < d.lay.pts.length := by simpa using hi1
    simp only [List.getElem_map, List.getElem_ofFn]
    have := h1 i hi (List.mem_range.mpr hi)
    refine Eq.trans this ?_
    congr 1
    have hpf : ∀ k (hk : k < d.lay.pts.length) (x : ℝ), (if k ∈ L₁.perfect then 0 else x) =
        if d.lay.pts[k] ∈ perfectPoints.getD [] then 0 else x := by
      intro k hk x
      by_cases hc : d.lay.pts[k] ∈ perfectPoints.getD []
      · rw [if_pos hc, if_pos ((hu.perfect k hk).mpr hc)]
      · rw [if_neg hc, if_neg fun h => hc ((hu.perfect k hk).mp h)]
    have hmul : ∀ x, (scz d).mulVec x = Sum.elim (fun i => x (.inl i)) fun i => (∑ j, d.lay.adj i j * x (.inl j)) + x (.inr i) := by
      intro x
      funext k
      unfold scz CvOps.sczMat
      rw [Matrix.fromBlocks_mulVec]
      cases k <;> simp [Matrix.mulVec, dotProduct]
    cases quad with
    | q =>
      refine Eq.trans ?_ (congrFun (hmul (noise d perfectPoints ps gs r.z)) (.inl ⟨i, hi⟩)).symm
      simp only [Sum.elim_inl, noise]
      rw [hpf i hi]
      rfl
    | p =>
      refine Eq.trans ?_ (congrFun (hmul (noise d perfectPoints ps gs r.z)) (.inr ⟨i, hi⟩)).symm
      simp only [Sum.elim_inr, noise]
      rw [hpf i hi, add_comm]
      congr 1
      apply Finset.sum_congr rfl
      intro j _
      rw [hpf j j.isLt]
      rfl
  · intro quad' hq'
    have hhom := h3 quad' hq'
    have e1 : homOutcomes { d with lay := L₂ } none quad' = some (L₂.pts.map (L₂.attrs.hom quad')) := by
      unfold homOutcomes
      cases quad' <;> exact getAll_all { d with lay := L₂ } hn₂ _
    have e2 : homOutcomes d none quad' = some (d.lay.pts.map (d.lay.attrs.hom quad')) := by
      unfold homOutcomes
      cases quad' <;> exact getAll_all d hn _
    rw [e1, e2, hpts, hhom]
    cases quad' <;> rfl
  · unfold bitValues
    rw [getAll_all { d with lay := L₂ } hn₂, getAll_all d hn]
    simp only
    rw [hpts, hbit]

/-! ### Edits of the graph after the layer was made -/

/-- Qubits added later are ignored: the layer goes on as if the graph had not been edited (for the indices of its modes; the dictionary of
points, which grows, is not modelled beyond them). -/
theorem C89_added (d : Direct) (hn : ∀ p ∈ d.lay.pts, p ∈ d.graph.nodes) (op : Op)
    (hop : ∀ p ∈ d.graph.nodes, p ∈ (step d.graph op).2.nodes) (draw : List ℕ) (quad : Quad) (inds inds' : Option (List ℕ))
    (_hstates : ∀ e ∈ d.lay.states, ∀ i ∈ e.2, i < d.lay.pts.length) (_hdraw : ∀ i ∈ draw, i < d.lay.pts.length)
    (_hinds : ∀ i ∈ inds.getD [], i < d.lay.pts.length) (_hinds' : ∀ i ∈ inds'.getD [], i < d.lay.pts.length)
    (isArray : Bool) (m c : Option (List ℝ)) (propagate : Bool) (r : Rnd) (quad' : Quad) :
    (populateD (edit d op) draw).map (·.lay) = (populateD d draw).map (·.lay) ∧
    (measureD (edit d op) quad inds isArray m c propagate r).map (·.lay) =
      (measureD d quad inds isArray m c propagate r).map (·.lay) ∧
    homOutcomes (edit d op) inds' quad' = homOutcomes d inds' quad' ∧ bitValues (edit d op) inds' = bitValues d inds' := by
  have he : edit d op = { d with graph := (step d.graph op).2 } := by
    have hk : ∀ {α : Type} (f : Pt → Option α), (fun p =>
        if p ∈ d.graph.nodes ∧ p ∉ (step d.graph op).2.nodes then none else f p) = f := by
      intro α f
      funext p
      rw [if_neg]
      rintro ⟨h1, h2⟩
      exact h2 (hop p h1)
    unfold edit
    simp only [hk]
  rw [he]
  have hpres : ∀ l, present d l := fun l i _ p hp => hn p (List.mem_of_getElem? hp)
  have hpres' : ∀ l, present { d with graph := (step d.graph op).2 } l := fun l i _ p hp =>
    hop p (hn p (List.mem_of_getElem? hp))
  have hget : ∀ {α : Type} (f : Pt → Option α), getAll { d with graph := (step d.graph op).2 } inds' f = getAll d inds' f := by
    intro α f
    unfold getAll
    congr 1
    funext i
    cases hp : d.lay.pts[i]? with
    | none => rfl
    | some p =>
      have := hn p (List.mem_of_getElem? hp)
      simp only [Option.bind_some]
      rw [if_pos this, if_pos (hop p this)]
  refine ⟨?_, ?_, ?_, ?_⟩
  · unfold populateD
    simp only
    cases populate d.lay draw with
    | none => rfl
    | some l =>
      simp only [Option.bind_some]
      have q1 : ∀ e ∈ l.states, present d e.2 := fun e _ => hpres e.2
      have q2 : ∀ e ∈ l.states, present { d with graph := (step d.graph op).2 } e.2 := fun e _ => hpres' e.2
      rw [if_pos q1, if_pos q2]
      rfl
  · unfold measureD
    simp only
    split
    · rfl
    · rw [if_pos (hpres _), if_pos (hpres' _)]
      cases measureHom d.lay quad inds isArray m c propagate r <;> rfl
  · unfold homOutcomes
    cases quad' <;> exact hget _
  · exact hget _

/-- Once a qubit of the layer has been removed, the first `populate_states` raises, and so does everything that measures it or reads
its outcome. -/
theorem C89_removed (d : Direct) (i : ℕ) (hi : i < d.lay.pts.length) (hgone : d.lay.pts[i] ∉ d.graph.nodes) :
    (Noise.Fresh d.lay → ∀ draw : List ℕ, (∀ k ∈ draw, k < d.lay.pts.length) → populateD d draw = none) ∧
    (∀ quad inds isArray m c propagate r, i ∈ Option.getD inds (List.range d.lay.pts.length) →
      measureD d quad inds isArray m c propagate r = none) ∧
    ∀ inds, i ∈ Option.getD inds (List.range d.lay.pts.length) → (∀ quad, homOutcomes d inds quad = none) ∧
      bitValues d inds = none := by
  have hget : ∀ {α : Type} (f : Pt → Option α) inds, i ∈ Option.getD inds (List.range d.lay.pts.length) → getAll d inds f = none := by
    intro α f inds hin
    cases hc : getAll d inds f with
    | none => rfl
    | some l =>
      exfalso
      unfold getAll at hc
      rw [mapM_some_iff] at hc
      have hm := List.mem_map_of_mem (f := fun i => (d.lay.pts[i]?).bind fun p => if p ∈ d.graph.nodes then some (f p) else none) hin
      rw [hc, List.getElem?_eq_getElem hi, Option.bind_some, if_neg hgone] at hm
      simp at hm
  refine ⟨fun hf draw hdr => ?_, fun quad inds isArray m c propagate r hin => ?_, fun inds hin => ⟨fun quad => ?_, hget _ inds hin⟩⟩
  · obtain ⟨hnd, ps, hs, hps⟩ := hf
    have hnext := nextP_lt hdr hps
    have hpop := populate_spec d.lay ps [] draw (Or.inl ⟨hs, rfl⟩) hnext
    unfold populateD
    rw [hpop, Option.bind_some, if_neg]
    intro hall
    by_cases hip : i ∈ nextP d.lay draw ps
    · exact hgone (hall ("p", nextP d.lay draw ps) (by simp [Layer.withState, Layer.withStates]) i hip _
        (List.getElem?_eq_getElem hi))
    · exact hgone (hall ("GKP", compl d.lay.pts.length (nextP d.lay draw ps ++ []))
        (by simp [Layer.withState, Layer.withStates]) i (mem_compl.mpr ⟨hi, by simpa using hip⟩) _
        (List.getElem?_eq_getElem hi))
  · unfold measureD
    split
    · rfl
    · rw [if_neg]
      intro hall
      exact hgone (hall i hin _ (List.getElem?_eq_getElem hi))
  · unfold homOutcomes
    cases quad <;> exact hget _ inds hin

/-- A layer made while the graph had a matrix of another size cannot measure in the initial order. -/
theorem C89_stale (d : Direct) (ho : d.lay.order = .initial) (hr : d.rows.length ≠ d.lay.pts.length) (quad : Quad)
    (inds : Option (List ℕ)) (isArray : Bool) (m c : Option (List ℝ)) (propagate : Bool) (r : Rnd) :
    measureD d quad inds isArray m c propagate r = none := by
  unfold measureD
  rw [if_pos ⟨Or.inl ho, hr⟩]

/-! ### The hypotheses are met -/

/-- A Bell pair with one ideal qubit. -/
def bell : EG := { nodes := [(1, 0, 0), (0, 0, 0)], edges := [((1, 0, 0), (0, 0, 0), 1)] }

theorem fresh_bell : EGraph.Fresh bell :=
  ⟨by decide, by simp [bell], by simp [bell], rfl, rfl, rfl, by simp [bell]⟩

/-- The missing attributes. -/
def noAttrs : Attrs Pt := ⟨fun _ => none, fun _ => none, fun _ => none, fun _ => none⟩

/-- Layers of every kind on the Bell pair, to which the theorems apply. -/
example (delta : ℝ) (pSwap : Option ℝ) (order : Order) :
    ∃ d, (make bell noAttrs (some [(1, 0, 0)]) delta pSwap order none).1 = some d ∧
      UpToDate bell (some [(1, 0, 0)]) d ∧ d.lay.pts.Pairwise PtLt ∧ d.lay.pts.length = 2 := by
  obtain ⟨d, h1, h2, h3⟩ := C89_sorted fresh_bell rfl noAttrs (some [(1, 0, 0)]) (by simp [bell]) delta pSwap order none
    (states := [("p", [])]) (by cases pSwap <;> rfl)
  exact ⟨d, h1, h2, h3, h2.perm.length_eq⟩

/-- The Bell pair after `adj_generator`. -/
def bell' : EG :=
  { bell with
    toIndices := some [((0, 0, 0), 0), ((1, 0, 0), 1)]
    toPoints := some [(0, (0, 0, 0)), (1, (1, 0, 0))]
    adjMat := some [[0, 1], [1, 0]] }

theorem bell_adj : (adjGenerator bell).2 = bell' := by
  have hs : sorted bell.nodes = [(0, 0, 0), (1, 0, 0)] := by simp [sorted, bell, List.mergeSort, ptLe]
  have h : indexGenerator bell = (.ok [((0, 0, 0), 0), ((1, 0, 0), 1)], { bell' with adjMat := none }) := by
    unfold indexGenerator
    simp only [hs]
    rfl
  rw [adjGenerator_eq_of_index rfl rfl h rfl rfl]
  decide +kernel

/-- A layer in the initial order, to which a qubit is added (and ignored) or from which one is removed. -/
example (delta : ℝ) (hd : 0 < delta) (pSwap : Option ℝ) :
    ∃ d, (make bell noAttrs none delta pSwap .initial none).1 = some d ∧ UpToDate bell none d ∧ d.code = none ∧
      Noise.Fresh d.lay ∧ (∀ p ∈ d.lay.pts, p ∈ d.graph.nodes) ∧ d.lay.order = .initial ∧ 0 < d.lay.delta ∧
      (∀ p ∈ d.graph.nodes,
        p ∈ (step d.graph (.addQubit (.tuple [2, 0, 0]) (some (.tuples [(1, 0, 0)])) false)).2.nodes) ∧
      (step d.graph (.addQubit (.tuple [2, 0, 0]) (some (.tuples [(1, 0, 0)])) false)).2.nodes ≠ d.graph.nodes ∧
      ∃ i, ∃ hi : i < (edit d (.removeQubit (.tuple (1, 0, 0)))).lay.pts.length,
        (edit d (.removeQubit (.tuple (1, 0, 0)))).lay.pts[i] ∉ (edit d (.removeQubit (.tuple (1, 0, 0)))).graph.nodes := by
  obtain ⟨rows, g', ha, hn, he, hc, hadj, _⟩ := C16_adj_generator fresh_bell rfl
  have hg' : g' = bell' := by rw [← bell_adj, ha]
  subst hg'
  obtain ⟨d, h1, h2, h3, h4, h5, h6, h7, h8, h9, _⟩ := make_ok ha hc hadj (by decide) noAttrs none (by simp) delta pSwap .initial
    (supplied := none) (states := [("p", [])]) (by cases pSwap <;> rfl)
  have hperm : d.lay.pts.Perm bell.nodes := h2.perm
  refine ⟨d, by rw [h1], ⟨hperm, h2.rows, h2.adj, h2.perfect⟩, h3, ⟨hperm.nodup_iff.mpr fresh_bell.nodes_nodup, [], h8, by simp⟩,
    ?_, h7, h5 ▸ hd, ?_, ?_, ?_⟩
  · intro p hp
    rw [h4]
    exact hperm.mem_iff.mp hp
  · rw [h4]; decide +kernel
  · rw [h4]; decide +kernel
  · have hm : ((1, 0, 0) : Pt) ∈ d.lay.pts := hperm.mem_iff.mpr (by decide)
    obtain ⟨i, hi, hpi⟩ := List.getElem_of_mem hm
    refine ⟨i, hi, ?_⟩
    have e1 : (edit d (.removeQubit (.tuple (1, 0, 0)))).lay.pts[i]'hi = (1, 0, 0) := hpi
    rw [e1]
    have e2 : (edit d (.removeQubit (.tuple (1, 0, 0)))).graph = (step bell' (.removeQubit (.tuple (1, 0, 0)))).2 := by
      rw [← h4]; rfl
    rw [e2]
    decide +kernel

/-- A rejected `add_qubit` leaves an old matrix behind; a layer made now cannot measure. -/
example (delta : ℝ) : ∃ d, (make (step bell' (.addQubit (.tuple [2, 0, 0]) (some .badType) false)).2 noAttrs none delta none .initial
      none).1 = some d ∧ d.lay.order = .initial ∧ d.rows.length ≠ d.lay.pts.length := by
  have h : (step bell' (.addQubit (.tuple [2, 0, 0]) (some .badType) false)).2 =
      { bell' with
        nodes := [(1, 0, 0), (0, 0, 0), (2, 0, 0)]
        toIndices := some [((0, 0, 0), 0), ((1, 0, 0), 1), ((2, 0, 0), 2)]
        toPoints := some [(0, (0, 0, 0)), (1, (1, 0, 0)), (2, (2, 0, 0))] } := by decide +kernel
  rw [h]
  exact ⟨_, rfl, rfl, by show 2 ≠ 3; decide⟩

end Flamingpy.CvDirect
