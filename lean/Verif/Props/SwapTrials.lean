import Verif.Props.CvTrials
import Verif.Props.SwapLaw

/-!
# C68: simulations with a `CVLayer` with swap-outs

The expected number of errors, from the law of the states of the modes (C67) and of the deviates.
-/

namespace Flamingpy.Trial

open Flamingpy Flamingpy.SurfaceCode Flamingpy.UnionFind Flamingpy.Weights Flamingpy.Sim MeasureTheory ProbabilityTheory

variable {Ω : Type*} [MeasurableSpace Ω] {μ : Measure Ω} [IsProbabilityMeasure μ]

/-- Specification: the deviation of the position of a mode: `A` are the squeezed modes, `G` the GKP modes, the others are noiseless. -/
noncomputable def swapQ (delta : ℝ) (A G : Finset ℕ) (i : ℕ) : ℝ := if i ∈ A then 1 / √(2 * delta) else if i ∈ G then √(delta / 2) else 0

/-- Specification: the deviation of the momentum of a mode. -/
noncomputable def swapP (delta : ℝ) (A G : Finset ℕ) (i : ℕ) : ℝ := if i ∈ A ∪ G then √(delta / 2) else 0

open Classical in
/-- Specification: the syndrome qubits whose bits are 1 if `z` are the deviates of the positions and momenta: the momentum of a qubit
is its own noise plus the position noise of its neighbours times the edge weights. -/
noncomputable def swapFlips (code : Code) (pts : List V) (delta : ℝ) (A G : Finset ℕ) (z : ℕ → ℝ) : Finset V :=
  code.syndrome.toFinset.filter fun x => Gkp.gkpBinner (swapP delta A G (pts.idxOf x) * z (pts.length + pts.idxOf x) +
    ∑ y ∈ pts.toFinset, Noise.edgeWeight code x y * (swapQ delta A G (pts.idxOf y) * z (pts.idxOf y))) = 1

/-- Node attributes with the given squeezed modes. -/
def swapAttrs (pts : List V) (A : Finset ℕ) : Weights.Attrs :=
  ⟨fun x => some (if pts.idxOf x ∈ A then "p" else "GKP"), fun _ => none, fun _ => none⟩

open Classical in
/-- Specification: the probability that `correct` answers `False` if every mode is independently squeezed (probability `p`), a noisy GKP state
(probability `g`) or noiseless. -/
noncomputable def swapFailure (X : Libs) (code : Code) (pts : List V) (delta p g : ℝ) (name : String) (o : Opts) : ℝ :=
  ∑ A ∈ (Finset.range pts.length).powerset, ∑ G ∈ (Finset.range pts.length \ A).powerset,
    p ^ A.card * g ^ G.card * (1 - p - g) ^ (pts.length - A.card - G.card) *
      (Measure.infinitePi fun _ : ℕ => gaussianReal 0 1).real
        {z | Fails X code name o (swapAttrs pts A) (swapFlips code pts delta A G z)}

theorem _root_.Flamingpy.Noise.Calls.hist {P : Type} [DecidableEq P] {draw : ℕ → List ℕ} {L₀ L : Noise.Layer P} {n : ℕ}
    (hf : Noise.Fresh L₀) (hd : ∀ k, ∀ i ∈ draw k, i < L₀.pts.length) (h : Noise.Calls draw L₀ n L) : Noise.Hist L₀ n L := by
  induction h with
  | start => exact .start
  | @populate n _ _ _ hp ih =>
    obtain ⟨ps, gs, hi⟩ := ih.inv hf
    exact .populate _ ih (by rw [hi.pts]; exact hd n) hp
  | measure _ _ _ _ _ _ _ _ hm ih => exact .measure _ _ _ _ _ _ _ ih hm
  | decode _ _ hm ih => exact .decode _ ih hm
  | bits b _ ih => exact .bits b ih

theorem _root_.Flamingpy.Noise.Calls.apply {P : Type} [DecidableEq P] {draw : ℕ → List ℕ} {L₀ L L' : Noise.Layer P} {n : ℕ}
    (h : Noise.Calls draw L₀ n L) (inds : List ℕ) (coords : List P) (r : Noise.Rnd)
    (ha : Noise.applyNoise L inds coords (draw n) r = some L') : Noise.Calls draw L₀ (n + 1) L' := by
  unfold Noise.applyNoise at ha
  obtain ⟨L1, h1, ha⟩ := Option.bind_eq_some_iff.1 ha
  obtain ⟨L2, h2, h3⟩ := Option.bind_eq_some_iff.1 ha
  exact .decode _ (.measure _ _ _ _ _ _ _ (.populate h h1) h2) h3

theorem swap_step {code : Code} (h : IsCode code) (X : Libs) {pts : List V} {delta p : ℝ} {L₀ : Noise.Layer V}
    (hL : Noise.OnCode code pts delta (some p) .initial none L₀) (hd : 0 < delta) {name : String} (hn : name = "MWPM" ∨ name = "UF")
    {o : Opts} (ho : o.method = "uniform") {draw : ℕ → List ℕ} (hdr : ∀ k, ∀ i ∈ draw k, i < pts.length)
    {s : (Noise.Layer V × (ℕ → List ℕ × Noise.Rnd)) × (V → Option ℝ)} {n : ℕ} (hh : Noise.Calls draw L₀ n s.1.1)
    (hs : (s.1.2 0).1 = draw n) :
    ∃ ok s', ecTrial X code name o (cvModel code pts) s = some (ok, s') ∧ Noise.Calls draw L₀ (n + 1) s'.1.1 ∧
      (s'.1.2 = fun i => s.1.2 (i + 1)) ∧ (ok = false ↔
        Fails X code name o (swapAttrs pts (Noise.modeSet p pts.length (draw n).toFinset))
          (swapFlips code pts delta (Noise.modeSet p pts.length (draw n).toFinset)
            (Noise.swapGkp pts.length (fun k => Noise.modeSet p pts.length (draw k).toFinset) (n + 1)) (s.1.2 0).2.z)) := by
  have hf := hL.fresh h
  obtain ⟨f1, -, f3, -, -, f6, -⟩ := hL.fields
  have hst : L₀.states = [("p", [])] := by
    rw [(Noise.C53_constructor _ none).2.1 rfl] at f6
    exact (Option.some.inj f6).symm
  have hnd : pts.Nodup := hL.perm.nodup_iff.2 h.ok.1.nodesNd
  have hdr' : ∀ k, ∀ i ∈ draw k, i < L₀.pts.length := by rw [f1]; exact hdr
  obtain ⟨L', ps, gs, a1, a2, a3, a4⟩ := Noise.C53_apply_noise_initial h hL hf hd (hh.hist hf hdr') (s.1.2 0).1
    (by rw [hs]; exact hdr n) (s.1.2 0).2
  have a1' := a1
  rw [hs] at a1'
  have hh' := hh.apply _ _ _ a1'
  obtain ⟨ps', gs', hi', -, i1, i2⟩ := hh'.inv hf.1 hst f3 hdr'
  obtain ⟨b1, b2⟩ := hi'.inds (by omega)
  rw [a2] at b1
  rw [a3] at b2
  obtain rfl := Option.some.inj b1
  obtain rfl := Option.some.inj b2
  have i1 := i1 n rfl
  rw [f1] at i1 i2
  rw [← i1, ← i2]
  have hp' : L'.pts = pts := hi'.pts.trans f1
  have happ : (cvModel code pts).apply s.1 = some (L', fun i => s.1.2 (i + 1)) := by
    change Option.map _ (Noise.applyNoise _ _ _ _ _) = _
    rw [a1]
    rfl
  have hlab : ∀ v ∈ PyDict.keys code.graph.nodes, L'.attrs.state v = some (if pts.idxOf v ∈ ps then "p" else "GKP") := by
    intro v hvn
    have hm : v ∈ L'.pts := by rw [hp']; exact hL.perm.mem_iff.2 hvn
    obtain ⟨i, hi, rfl⟩ := List.getElem_of_mem hm
    rw [hi'.labels (by omega) i hi]
    have : pts.idxOf L'.pts[i] = i := by
      rw [← hp']
      exact (by rw [hp']; exact hnd : L'.pts.Nodup).idxOf_getElem i hi
    rw [this]
  have hval : Valid code name o ((cvModel code pts).attrs (L', fun i => s.1.2 (i + 1))) := by
    rcases hn with rfl | rfl
    · exact Or.inl ⟨rfl, Or.inl ho⟩
    · exact Or.inr ⟨rfl, ho⟩
  obtain ⟨b, w, ok, h1, h2, -⟩ := ecTrial_of (X := X) h (s := s) happ hval
  refine ⟨_, _, h1, hh'.bits _, rfl, ?_⟩
  refine verdict_iff' h X hn ho (fun x _ => ?_) (fun x hx => ?_) h2
  · unfold squeezedNeighbors
    refine List.countP_congr fun v hv => ?_
    have hv' : v ∈ PyDict.keys code.graph.nodes := (List.mem_filter.1 hv).1
    change decide (L'.attrs.state v = some "p") = true ↔ decide ((swapAttrs pts ps.toFinset).state v = some "p") = true
    rw [hlab v hv']
    simp only [swapAttrs, List.mem_toFinset]
  · change decide (L'.attrs.bit x = some 1) = _
    rw [(a4 x hx).2]
    have heq : Noise.outcomeP code pts delta ps gs (s.1.2 0).2.z x =
        swapP delta ps.toFinset gs.toFinset (pts.idxOf x) * (s.1.2 0).2.z (pts.length + pts.idxOf x) +
          ∑ y ∈ pts.toFinset, Noise.edgeWeight code x y *
            (swapQ delta ps.toFinset gs.toFinset (pts.idxOf y) * (s.1.2 0).2.z (pts.idxOf y)) := by
      unfold Noise.outcomeP Noise.sdP swapP
      rw [← Noise.sum_pts hnd]
      congr 1
      · simp only [Finset.mem_union, List.mem_toFinset, or_comm]
      · refine Finset.sum_congr rfl fun j _ => ?_
        rw [Noise.sdQ, swapQ, hnd.idxOf_getElem j.1 j.2]
        simp only [List.mem_toFinset]
        congr 2
        by_cases c1 : j.1 ∈ ps
        · rw [if_neg (hi'.disj _ c1), if_pos c1, if_pos c1]
        · rw [if_neg c1, if_neg c1]
    rw [Bool.eq_iff_iff]
    simp [swapFlips, hx, heq]

theorem swap_outcome {code : Code} (h : IsCode code) (X : Libs) {pts : List V} {delta p : ℝ} {L₀ : Noise.Layer V}
    (hL : Noise.OnCode code pts delta (some p) .initial none L₀) (hd : 0 < delta) {name : String} (hn : name = "MWPM" ∨ name = "UF")
    {o : Opts} (ho : o.method = "uniform") (rnd : ℕ → List ℕ × Noise.Rnd) (hr : ∀ k, ∀ i ∈ (rnd k).1, i < pts.length)
    (w : V → Option ℝ) (k : ℕ) :
    ∃ ok, outcome (ecTrial X code name o (cvModel code pts)) k ((L₀, rnd), w) = some ok ∧ (ok = false ↔
        Fails X code name o (swapAttrs pts (Noise.modeSet p pts.length (rnd k).1.toFinset))
          (swapFlips code pts delta (Noise.modeSet p pts.length (rnd k).1.toFinset)
            (Noise.swapGkp pts.length (fun k => Noise.modeSet p pts.length (rnd k).1.toFinset) (k + 1)) (rnd k).2.z)) := by
  have haft : ∀ k, ∃ s', after (ecTrial X code name o (cvModel code pts)) k ((L₀, rnd), w) = some s' ∧
      Noise.Calls (fun k => (rnd k).1) L₀ k s'.1.1 ∧ s'.1.2 = fun i => rnd (k + i) := by
    intro k
    induction k with
    | zero => exact ⟨_, rfl, .start, by simp⟩
    | succ k ih =>
      obtain ⟨s1, e1, h1, c1⟩ := ih
      obtain ⟨ok, s2, e2, h2, c2, -⟩ := swap_step h X hL hd hn ho hr (s := s1) h1 (by rw [c1]; rfl)
      refine ⟨s2, by rw [after, e1, Option.bind_some, e2]; rfl, h2, ?_⟩
      rw [c2, c1]
      funext i
      simp only
      congr 1
      ring
  obtain ⟨s1, e1, h1, c1⟩ := haft k
  obtain ⟨ok, s2, e2, -, -, h3⟩ := swap_step h X hL hd hn ho hr (s := s1) h1 (by rw [c1]; rfl)
  refine ⟨ok, by rw [outcome, e1, Option.bind_some, e2]; rfl, ?_⟩
  rw [h3, c1]
  rfl

theorem measurable_swapFlips (code : Code) (pts : List V) (delta : ℝ) (A G : Finset ℕ) (F : Finset V → Prop) :
    MeasurableSet {z : ℕ → ℝ | F (swapFlips code pts delta A G z)} := by
  classical
  have hset : {z : ℕ → ℝ | F (swapFlips code pts delta A G z)} = ⋃ S ∈ code.syndrome.toFinset.powerset.filter F,
      ⋂ x ∈ code.syndrome.toFinset, {z : ℕ → ℝ | Gkp.gkpBinner (swapP delta A G (pts.idxOf x) * z (pts.length + pts.idxOf x) +
        ∑ y ∈ pts.toFinset, Noise.edgeWeight code x y * (swapQ delta A G (pts.idxOf y) * z (pts.idxOf y))) = 1 ↔ x ∈ S} := by
    ext z
    simp only [Set.mem_ofPred_eq, Set.mem_iUnion, Set.mem_iInter, Finset.mem_filter, Finset.mem_powerset, exists_prop]
    constructor
    · intro hF
      refine ⟨swapFlips code pts delta A G z, ⟨Finset.filter_subset _ _, hF⟩, fun x hx => ?_⟩
      rw [swapFlips, Finset.mem_filter]
      exact ⟨fun e => ⟨hx, e⟩, fun e => e.2⟩
    · rintro ⟨S, ⟨h1, h2⟩, h3⟩
      have : swapFlips code pts delta A G z = S := by
        ext x
        rw [swapFlips, Finset.mem_filter]
        constructor
        · rintro ⟨hx, e⟩; exact (h3 x hx).1 e
        · intro hx; exact ⟨h1 hx, (h3 x (h1 hx)).2 hx⟩
      rw [this]
      exact h2
  rw [hset]
  refine Finset.measurableSet_biUnion _ fun S _ => Finset.measurableSet_biInter _ fun x _ => ?_
  have hm : Measurable fun z : ℕ → ℝ => Gkp.gkpBinner (swapP delta A G (pts.idxOf x) * z (pts.length + pts.idxOf x) +
        ∑ y ∈ pts.toFinset, Noise.edgeWeight code x y * (swapQ delta A G (pts.idxOf y) * z (pts.idxOf y))) :=
    Gkp.measurable_binner.comp (by fun_prop)
  by_cases hx : x ∈ S
  · simp only [hx, iff_true]
    exact hm (measurableSet_singleton (1 : ℤ))
  · simp only [hx, iff_false]
    exact hm (measurableSet_singleton (1 : ℤ)).compl

omit [IsProbabilityMeasure μ] in
theorem _root_.Flamingpy.Noise.SwapRng.comp {J K : Type*} {N : ℕ} {p : ℝ} {num : J → Ω → ℕ} {choice : J → Ω → ℕ → List ℕ}
    (h : Noise.SwapRng N p num choice μ) {g : K → J} (hg : Function.Injective g) :
    Noise.SwapRng N p (fun k => num (g k)) (fun k => choice (g k)) μ :=
  ⟨fun k => h.measNum _, fun k => h.measChoice _, fun k => h.range _, fun k => h.arrangement _, fun k => h.binomial _,
    fun k => h.uniform _, fun k => h.indepPair _, h.indep.precomp hg⟩

/-- C68.  With swap-out probability `p`, a generator that behaves as documented and uniform weights, the expected number of errors of a
simulation is the sum over the trials of the failure probability if every mode is independently squeezed with probability `p`,
a noisy GKP state with probability `g` and noiseless otherwise, where `g = (1 - p) (1 - (p - 1) ^ k) / (2 - p)` for the
`k`-th trial of a process; only for the first trial of every process `g = 1 - p`. -/
theorem C68_mean {code : Code} (h : IsCode code) (X : Libs) {pts : List V} {delta p : ℝ} (hp1 : p ≤ 1) {L₀ : Noise.Layer V}
    (hL : Noise.OnCode code pts delta (some p) .initial none L₀) (hd : 0 < delta) {name : String} (hn : name = "MWPM" ∨ name = "UF")
    {o : Opts} (ho : o.method = "uniform") (trials : ℕ) {size : ℕ} (hs : 0 < size) {Z : ℕ × ℕ × ℕ → Ω → ℝ}
    (hZ : Noise.NormalIid Z μ) {num : ℕ × ℕ → Ω → ℕ} {choice : ℕ × ℕ → Ω → ℕ → List ℕ}
    (hC : Noise.SwapRng pts.length p num choice μ)
    (hind : IndepFun (fun ω j => (num j ω, choice j ω)) (fun ω j => Z j ω) μ) (u : ℕ → ℕ → ℕ → ℝ)
    (b : ℕ → ℕ → ℕ → ℤ) (errors : Ω → ℤ)
    (he : ∀ ω, ∃ err, monteCarlo (ecTrial X code name o (cvModel code pts)) trials size
      (fun r => ((L₀, fun k => (Noise.squeezedDraw (num (r, k) ω) (choice (r, k) ω), ⟨fun i => Z (r, k, i) ω, u r k, b r k⟩)),
        fun _ => none)) = some err ∧ errors ω = err 0) :
    ∫ ω, (errors ω : ℝ) ∂μ = ∑ t ∈ Finset.range trials,
      swapFailure X code pts delta p ((1 - p) * (1 - (p - 1) ^ (t / size + 1)) / (2 - p)) name o := by
  classical
  set N := pts.length with hN
  set Ds : ℕ → ℕ → Ω → Finset ℕ := fun r k ω => Noise.modeSet p N (Noise.drawSet num choice (r, k) ω) with hDs
  have hD : ∀ r, Noise.Draws N p (Ds r) μ := fun r =>
    (hC.comp (g := fun k : ℕ => (r, k)) (fun a b e => by simpa using e)).draws
  set Gs : ℕ → ℕ → Ω → Finset ℕ := fun r k ω => Noise.swapGkp N (fun i => Ds r i ω) (k + 1) with hGs
  set Fz : Finset ℕ → Finset ℕ → Set (ℕ → ℝ) := fun A G =>
    {z | Fails X code name o (swapAttrs pts A) (swapFlips code pts delta A G z)} with hFz
  have hFm : ∀ A G, MeasurableSet (Fz A G) := fun A G =>
    measurable_swapFlips code pts delta A G (Fails X code name o (swapAttrs pts A))
  set E : ℕ → Set Ω := fun t => {ω | (fun i => Z (t % size, t / size, i) ω) ∈ Fz (Ds (t % size) (t / size) ω) (Gs (t % size) (t / size) ω)}
    with hE
  have hE1 : ∀ t, MeasurableSet (E t) ∧ μ.real (E t) =
      swapFailure X code pts delta p ((1 - p) * (1 - (p - 1) ^ (t / size + 1)) / (2 - p)) name o := by
    intro t
    set r := t % size
    set k := t / size
    have hc : Noise.NormalIid (fun i => Z (r, k, i)) μ := hZ.comp (g := fun i => (r, k, i)) (fun i j e => by simpa using e)
    have hm : Measurable fun ω (i : ℕ) => Z (r, k, i) ω := measurable_pi_lambda _ hc.meas
    have hlaw := hc.indep.map_fun_eq_infinitePi_map hc.meas
    simp_rw [hc.normal] at hlaw
    have hmG : Measurable (Gs r k) := (hD r).measGkp (k + 1)
    have hdec : E t = ⋃ A ∈ (Finset.range N).powerset, ⋃ G ∈ (Finset.range N \ A).powerset,
        ({ω | Ds r k ω = A ∧ Gs r k ω = G} ∩ (fun ω (i : ℕ) => Z (r, k, i) ω) ⁻¹' Fz A G) := by
      ext ω
      simp only [hE, Set.mem_ofPred_eq, Set.mem_iUnion, Set.mem_inter_iff, Set.mem_preimage, Finset.mem_powerset, exists_prop]
      constructor
      · intro hω
        refine ⟨_, (hD r).subset k ω, _, fun i hi => ?_, ⟨rfl, rfl⟩, hω⟩
        have : i ∈ Noise.swapGkp N (fun i => Ds r i ω) (k + 1) := hi
        rw [Noise.swapGkp, Finset.mem_sdiff, Finset.mem_union, not_or] at this
        exact Finset.mem_sdiff.2 ⟨this.1, this.2.1⟩
      · rintro ⟨A, -, G, -, ⟨rfl, rfl⟩, hz⟩
        exact hz
    have hmes : ∀ A G, MeasurableSet {ω | Ds r k ω = A ∧ Gs r k ω = G} := fun A G =>
      ((hD r).meas k (MeasurableSet.singleton A)).inter (hmG (MeasurableSet.singleton G))
    have hmes2 : ∀ A G, MeasurableSet ({ω | Ds r k ω = A ∧ Gs r k ω = G} ∩ (fun ω (i : ℕ) => Z (r, k, i) ω) ⁻¹' Fz A G) :=
      fun A G => (hmes A G).inter (hm (hFm A G))
    refine ⟨?_, ?_⟩
    · rw [hdec]
      exact Finset.measurableSet_biUnion _ fun A _ => Finset.measurableSet_biUnion _ fun G _ => hmes2 A G
    · rw [hdec, measureReal_biUnion_finset (h := fun A _ => measure_ne_top μ _)]
      · unfold swapFailure
        refine Finset.sum_congr rfl fun A hA => ?_
        rw [measureReal_biUnion_finset]
        · refine Finset.sum_congr rfl fun G hG => ?_
          rw [Finset.mem_powerset] at hA hG
          have hdis : Disjoint A G := Finset.disjoint_left.2 fun i h1 h2 => (Finset.mem_sdiff.1 (hG h2)).2 h1
          -- independence of the states and the deviates
          have hst : {ω | Ds r k ω = A ∧ Gs r k ω = G} = (fun ω (j : ℕ × ℕ) => (num j ω, choice j ω)) ⁻¹'
              {q | Noise.modeSet p N (Noise.squeezedDraw (q (r, k)).1 (q (r, k)).2).toFinset = A ∧
                Noise.swapGkp N (fun i => Noise.modeSet p N (Noise.squeezedDraw (q (r, i)).1 (q (r, i)).2).toFinset) (k + 1) = G} := rfl
          have hz : (fun ω (i : ℕ) => Z (r, k, i) ω) ⁻¹' Fz A G = (fun ω (j : ℕ × ℕ × ℕ) => Z j ω) ⁻¹' {q | (fun i => q (r, k, i)) ∈ Fz A G} := rfl
          have hm1 : MeasurableSet {q : ℕ × ℕ → ℕ × (ℕ → List ℕ) |
              Noise.modeSet p N (Noise.squeezedDraw (q (r, k)).1 (q (r, k)).2).toFinset = A ∧
                Noise.swapGkp N (fun i => Noise.modeSet p N (Noise.squeezedDraw (q (r, i)).1 (q (r, i)).2).toFinset) (k + 1) = G} := by
            have m0 : ∀ i, Measurable fun q : ℕ × ℕ → ℕ × (ℕ → List ℕ) =>
                Noise.modeSet p N (Noise.squeezedDraw (q (r, i)).1 (q (r, i)).2).toFinset := fun i =>
              (measurable_of_countable fun l : List ℕ => Noise.modeSet p N l.toFinset).comp
                (Noise.measurable_squeezedDraw.comp (measurable_pi_apply (r, i)))
            obtain ⟨φ, g1, g2⟩ := Noise.swapGkp_det (N := N) (k + 1)
            have m1 : Measurable fun q : ℕ × ℕ → ℕ × (ℕ → List ℕ) =>
                Noise.swapGkp N (fun i => Noise.modeSet p N (Noise.squeezedDraw (q (r, i)).1 (q (r, i)).2).toFinset) (k + 1) := by
              simp_rw [g2]
              exact g1.comp (measurable_pi_lambda _ fun i => m0 i)
            exact (m0 k (MeasurableSet.singleton A)).inter (m1 (MeasurableSet.singleton G))
          have hm2 : MeasurableSet {q : ℕ × ℕ × ℕ → ℝ | (fun i => q (r, k, i)) ∈ Fz A G} := by
            have : Measurable fun (q : ℕ × ℕ × ℕ → ℝ) (i : ℕ) => q (r, k, i) :=
              measurable_pi_lambda _ fun i => measurable_pi_apply (r, k, i)
            exact this (hFm A G)
          have hprod := Noise.indep_real hind hm1 hm2
          rw [← hst, ← hz] at hprod
          rw [hprod, (hD r).pattern k hA (hG.trans Finset.sdiff_subset) hdis, Noise.swapGkpProb_closed hp1, ← hlaw,
            map_measureReal_apply hm (hFm A G)]
        · intro G _ G' _ hne
          rw [Function.onFun, Set.disjoint_left]
          intro ω e e'
          exact hne (e.1.2.symm.trans e'.1.2)
        · intro G _
          exact hmes2 A G
      · intro A _ A' _ hne
        rw [Function.onFun, Set.disjoint_left]
        intro ω e e'
        simp only [Set.mem_iUnion, exists_prop] at e e'
        obtain ⟨_, _, e, -⟩ := e
        obtain ⟨_, _, e', -⟩ := e'
        exact hne (e.1.symm.trans e'.1)
      · intro A _
        exact Finset.measurableSet_biUnion _ fun G _ => hmes2 A G
  have hsum : ∀ ω, (errors ω : ℝ) = ∑ t ∈ Finset.range trials, (E t).indicator (fun _ => (1 : ℝ)) ω := by
    intro ω
    obtain ⟨err, e1, e2⟩ := he ω
    obtain ⟨-, e3, -⟩ := C49_errors _ trials size hs _ err e1
    rw [e2, e3]
    have hcard : (List.range trials).countP (fun i => decide (outcome (ecTrial X code name o (cvModel code pts)) (i / size)
        ((L₀, fun k => (Noise.squeezedDraw (num (i % size, k) ω) (choice (i % size, k) ω),
          ⟨fun j => Z (i % size, k, j) ω, u (i % size) k, b (i % size) k⟩)), fun _ => none) =
          some false)) = ((Finset.range trials).filter fun t => ω ∈ E t).card := by
      rw [List.countP_eq_length_filter, ← List.toFinset_card_of_nodup (List.nodup_range.filter _)]
      congr 1
      ext t
      simp only [Finset.mem_filter, Finset.mem_range, List.mem_toFinset, List.mem_filter, List.mem_range, decide_eq_true_eq]
      refine and_congr_right fun _ => ?_
      obtain ⟨ok, k1, k2⟩ := swap_outcome h X hL hd hn ho (fun k => (Noise.squeezedDraw (num (t % size, k) ω) (choice (t % size, k) ω),
        ⟨fun j => Z (t % size, k, j) ω, u (t % size) k, b (t % size) k⟩))
        (fun k i hi => (hC.arrangement _ ω _ (hC.range _ ω)).2.2 i hi) (fun _ => none) (t / size)
      rw [k1, Option.some.injEq, k2]
      rfl
    rw [hcard, Finset.card_filter]
    push_cast
    refine Finset.sum_congr rfl fun t _ => ?_
    rw [Set.indicator_apply]
  simp_rw [hsum]
  rw [integral_finsetSum]
  · simp_rw [integral_indicator_const (1 : ℝ) (hE1 _).1, (hE1 _).2]
    simp
  · intro t _
    exact (integrable_const (1 : ℝ)).indicator (hE1 t).1

/-- The weights in `swapFailure` are a probability distribution. -/
theorem swapFailure_weights (N : ℕ) (p g : ℝ) :
    ∑ A ∈ (Finset.range N).powerset, ∑ G ∈ (Finset.range N \ A).powerset,
      p ^ A.card * g ^ G.card * (1 - p - g) ^ (N - A.card - G.card) = 1 := by
  have h1 : ∀ A ∈ (Finset.range N).powerset, ∑ G ∈ (Finset.range N \ A).powerset,
      p ^ A.card * g ^ G.card * (1 - p - g) ^ (N - A.card - G.card) = p ^ A.card * (1 - p) ^ (N - A.card) := by
    intro A hA
    have hc : (Finset.range N \ A).card = N - A.card := by
      rw [Finset.card_sdiff_of_subset (Finset.mem_powerset.1 hA), Finset.card_range]
    have := Finset.sum_pow_mul_eq_add_pow g (1 - p - g) (Finset.range N \ A)
    rw [hc] at this
    rw [show 1 - p = g + (1 - p - g) by ring, ← this, Finset.mul_sum]
    refine Finset.sum_congr rfl fun G _ => ?_
    rw [show g + (1 - p - g) - g = 1 - p - g by ring]
    ring
  rw [Finset.sum_congr rfl h1]
  have := Finset.sum_pow_mul_eq_add_pow p (1 - p) (Finset.range N)
  rw [Finset.card_range] at this
  rw [this]
  norm_num

theorem iIndepFun_of_map {Ω₁ Ω₂ ι : Type*} [MeasurableSpace Ω₁] [MeasurableSpace Ω₂] {ν : Measure Ω₁} {μ : Measure Ω₂} {f : Ω₁ → Ω₂}
    (hf : MeasurePreserving f ν μ) {β : ι → Type*} [∀ i, MeasurableSpace (β i)] {Y : ∀ i, Ω₂ → β i} (hm : ∀ i, Measurable (Y i))
    (h : iIndepFun Y μ) : iIndepFun (fun i ω => Y i (f ω)) ν := by
  rw [iIndepFun_iff_measure_inter_preimage_eq_mul] at h ⊢
  intro S s hs
  have h1 : ∀ A, MeasurableSet A → ν (f ⁻¹' A) = μ A := fun A hA => hf.measure_preimage hA.nullMeasurableSet
  have h2 := h S hs
  have e1 : (⋂ i ∈ S, (fun ω => Y i (f ω)) ⁻¹' s i) = f ⁻¹' ⋂ i ∈ S, Y i ⁻¹' s i := by
    ext ω; simp
  rw [e1, h1 _ (Finset.measurableSet_biInter S fun i hi => hm i (hs i hi)), h2]
  refine Finset.prod_congr rfl fun i hi => ?_
  exact (h1 _ (hm i (hs i hi))).symm

theorem indepFun_of_map {Ω₁ Ω₂ : Type*} [MeasurableSpace Ω₁] [MeasurableSpace Ω₂] {ν : Measure Ω₁} {μ : Measure Ω₂} {f : Ω₁ → Ω₂}
    (hf : MeasurePreserving f ν μ) {β γ : Type*} [MeasurableSpace β] [MeasurableSpace γ] {Y : Ω₂ → β} {W : Ω₂ → γ}
    (hY : Measurable Y) (hW : Measurable W)
    (h : IndepFun Y W μ) : IndepFun (fun ω => Y (f ω)) (fun ω => W (f ω)) ν := by
  rw [indepFun_iff_measure_inter_preimage_eq_mul] at h ⊢
  intro s t hs ht
  have h1 : ∀ A, MeasurableSet A → ν (f ⁻¹' A) = μ A := fun A hA => hf.measure_preimage hA.nullMeasurableSet
  have h2 := h s t hs ht
  rw [← h1 _ ((hY hs).inter (hW ht)), ← h1 _ (hY hs), ← h1 _ (hW ht)] at h2
  exact h2

theorem _root_.Flamingpy.Noise.NormalIid.of_map {Ω₁ Ω₂ J : Type*} [MeasurableSpace Ω₁] [MeasurableSpace Ω₂] {ν : Measure Ω₁}
    {μ : Measure Ω₂} {f : Ω₁ → Ω₂} (hf : MeasurePreserving f ν μ) {Z : J → Ω₂ → ℝ} (h : Noise.NormalIid Z μ) :
    Noise.NormalIid (fun j ω => Z j (f ω)) ν := by
  refine ⟨fun j => (h.meas j).comp hf.measurable, iIndepFun_of_map hf h.meas h.indep, fun j => ?_⟩
  rw [← h.normal j, ← hf.map_eq, Measure.map_map (h.meas j) hf.measurable]
  rfl

theorem _root_.Flamingpy.Noise.SwapRng.of_map {Ω₁ Ω₂ J : Type*} [MeasurableSpace Ω₁] [MeasurableSpace Ω₂] {ν : Measure Ω₁}
    {μ : Measure Ω₂} {f : Ω₁ → Ω₂} (hf : MeasurePreserving f ν μ) {N : ℕ} {p : ℝ} {num : J → Ω₂ → ℕ} {choice : J → Ω₂ → ℕ → List ℕ}
    (h : Noise.SwapRng N p num choice μ) : Noise.SwapRng N p (fun j ω => num j (f ω)) (fun j ω => choice j (f ω)) ν := by
  have h1 : ∀ A, MeasurableSet A → ν.real (f ⁻¹' A) = μ.real A := fun A hA => by
    rw [measureReal_def, hf.measure_preimage hA.nullMeasurableSet]; rfl
  refine ⟨fun j => (h.measNum j).comp hf.measurable, fun j => (h.measChoice j).comp hf.measurable, fun j ω => h.range j _,
    fun j ω => h.arrangement j _, fun j k hk => ?_, fun j k hk l l1 l2 l3 => ?_, fun j k => ?_, ?_⟩
  · rw [← h.binomial j k hk]
    exact h1 _ (h.measNum j (MeasurableSet.singleton k))
  · rw [← h.uniform j k hk l l1 l2 l3]
    exact h1 _ (((measurable_pi_apply k).comp (h.measChoice j)) (MeasurableSet.singleton l))
  · exact indepFun_of_map hf (h.measNum j) ((measurable_pi_apply k).comp (h.measChoice j)) (h.indepPair j k)
  · exact iIndepFun_of_map hf (fun j => (h.measNum j).prodMk (h.measChoice j)) h.indep

-- a simulation with swap-outs in two processes
example (trials : ℕ) : ∃ (Ω : Type) (_ : MeasurableSpace Ω) (μ : Measure Ω) (code : Code) (X : Libs) (pts : List V) (errors : Ω → ℤ),
    IsProbabilityMeasure μ ∧ IsCode code ∧ ∫ ω, (errors ω : ℝ) ∂μ = ∑ t ∈ Finset.range trials,
      swapFailure X code pts (1 / 10) (1 / 4) ((1 - 1 / 4) * (1 - (1 / 4 - 1) ^ (t / 2 + 1)) / (2 - 1 / 4)) "UF" {} := by
  obtain ⟨code, pts, L, h1, h2, -⟩ := Noise.onCode_exists .primal .periodic (1 / 10) (some (1 / 4)) .initial
  obtain ⟨X, -⟩ := libs_exist .networkx
  obtain ⟨Ω₁, m₁, μ₁, hp₁, Z, hZ⟩ := Noise.normalIid_exists (ℕ × ℕ × ℕ)
  obtain ⟨Ω₂, m₂, μ₂, hp₂, num, choice, hC⟩ := Noise.swapRng_exists (ℕ × ℕ) pts.length (p := 1 / 4) (by norm_num) (by norm_num)
  have hsnd : MeasurePreserving (Prod.snd : Ω₂ × Ω₁ → Ω₁) (μ₂.prod μ₁) μ₁ := measurePreserving_snd
  have hfst : MeasurePreserving (Prod.fst : Ω₂ × Ω₁ → Ω₂) (μ₂.prod μ₁) μ₂ := measurePreserving_fst
  have hind : IndepFun (fun (ω : Ω₂ × Ω₁) j => (num j ω.1, choice j ω.1)) (fun ω j => Z j ω.2) (μ₂.prod μ₁) :=
    indepFun_prod (X := fun ω j => (num j ω, choice j ω)) (Y := fun ω j => Z j ω)
      (measurable_pi_lambda _ fun j => (hC.measNum j).prodMk (hC.measChoice j)) (measurable_pi_lambda _ hZ.meas)
  have hr : ∀ (ω : Ω₂ × Ω₁), ∀ r < 2, ∀ k, ∀ i ∈ Noise.squeezedDraw (num (r, k) ω.1) (choice (r, k) ω.1), i < pts.length :=
    fun ω r _ k i hi => (hC.arrangement _ ω.1 _ (hC.range _ ω.1)).2.2 i hi
  have hsim : ∀ ω : Ω₂ × Ω₁, ∃ err, monteCarlo (ecTrial X code "UF" {} (cvModel code pts)) trials 2
      (fun r => ((L, fun k => (Noise.squeezedDraw (num (r, k) ω.1) (choice (r, k) ω.1), ⟨fun i => Z (r, k, i) ω.2, fun _ => 0, fun _ => 0⟩)),
        fun _ => none)) = some err := fun ω => by
    obtain ⟨err, e, -⟩ := C59_cv h1 X h2 (by norm_num) (name := "UF") (o := {}) (Or.inl ⟨rfl, Or.inr rfl⟩) trials two_pos
      (fun r k => (Noise.squeezedDraw (num (r, k) ω.1) (choice (r, k) ω.1), ⟨fun i => Z (r, k, i) ω.2, fun _ => 0, fun _ => 0⟩)) (hr ω)
    exact ⟨err, e⟩
  choose err herr using hsim
  exact ⟨Ω₂ × Ω₁, inferInstance, μ₂.prod μ₁, code, X, pts, fun ω => err ω 0, inferInstance, h1,
    C68_mean h1 X (by norm_num) h2 (by norm_num) (Or.inr rfl) rfl trials two_pos (hZ.of_map hsnd) (hC.of_map hfst) hind
      (fun _ _ _ => 0) (fun _ _ _ => 0) _ fun ω => ⟨err ω, herr ω, rfl⟩⟩

end Flamingpy.Trial
