import Verif.Props.UfThreshold
import Verif.Props.SwapThreshold
import Verif.Props.MacroThreshold

/-!
# C86: thresholds of the Union-Find decoder for the noise of a `CVLayer` and of a `CVMacroLayer`

As for C77, C78 and C79, with flipped and erased qubits.
-/

namespace Flamingpy.Trial

open Flamingpy Flamingpy.SurfaceCode Flamingpy.UnionFind Flamingpy.Weights Flamingpy.Sim MeasureTheory ProbabilityTheory Filter

/-- C86.  A `CVLayer` without swap-outs. -/
theorem C86_bound {code : Code} (h : IsCode code) (hw : ∀ x y w, PyDict.get? code.graph.edges s(x, y) = some w → w.1 = 1 ∨ w.1 = -1)
    (X : Libs) {o : Opts} (ho : o.method = "uniform") {pts : List V} (hp : pts.Perm (PyDict.keys code.graph.nodes)) {delta : ℝ} (hd : 0 < delta)
    {k : ℕ} (hk : ∀ i ∈ planesToCheck code.ec code.boundaries, 2 ^ ((k ^ 2 + 15 * k) / 2 + 1) + 8 ≤ code.dims i) :
    noisyFailure X code pts delta "UF" o ≤ code.syndrome.length * (2 ^ 65 * cvRate delta) ^ (2 ^ k) := by
  have hr0 : 0 ≤ cvRate delta := by unfold cvRate; positivity
  unfold noisyFailure Fails
  refine C85_noise h X ho hk (fun _ => gkpAttrs) (fun _ _ => none) (fun z x => decide (x ∈ cvFlips code pts delta z)) false hr0 fun T _ => ?_
  refine (measureReal_mono (fun z hz => ?_) (measure_ne_top _ _)).trans (flips_le h hw hp hd)
  intro x hx
  rcases hz x hx with h1 | h1
  · simpa using h1
  · have : squeezedNeighbors code gkpAttrs x = 0 := by
      unfold squeezedNeighbors
      rw [List.countP_eq_zero]
      intro v _
      simp [gkpAttrs]
    omega

/-- C86.  Threshold for a `CVLayer` without swap-outs. -/
theorem C86_threshold {delta : ℝ} (hd : 0 < delta) (hr : 2 ^ 65 * (4 * √2 * Real.exp (-Real.pi / (136 * delta))) < 1) (m : ℕ) {ε : ℝ} (hε : 0 < ε) :
    ∃ d₀ : ℕ, ∀ d, d₀ ≤ d →
    ∀ code : Code, IsCode code → (∀ x y w, PyDict.get? code.graph.edges s(x, y) = some w → w.1 = 1 ∨ w.1 = -1) →
    (∀ i, d ≤ code.dims i ∧ code.dims i ≤ m * d) → ∀ (X : Libs) (o : Opts) (pts : List V), o.method = "uniform" →
      pts.Perm (PyDict.keys code.graph.nodes) → noisyFailure X code pts delta "UF" o < ε := by
  obtain ⟨d₀, hd₀⟩ := uf_limit (r := cvRate delta) (by unfold cvRate; positivity) hr m hε
  refine ⟨d₀, fun d hdd code h hw hdims X o pts ho hp => ?_⟩
  obtain ⟨k, hk, hlt⟩ := hd₀ d hdd code h hdims
  exact (C86_bound h hw X ho hp hd fun i _ => hk.trans (hdims i).1).trans_lt hlt

/-- C86.  With swap-outs. -/
theorem C86_swap_bound {code : Code} (h : IsCode code) (hw : ∀ x y w, PyDict.get? code.graph.edges s(x, y) = some w → w.1 = 1 ∨ w.1 = -1)
    (X : Libs) {o : Opts} (ho : o.method = "uniform") {pts : List V} (hpts : pts.Perm (PyDict.keys code.graph.nodes)) {delta p g : ℝ} (hd : 0 < delta)
    (hp : 0 ≤ p) (hg : 0 ≤ g) (hpg : p + g ≤ 1)
    {k : ℕ} (hk : ∀ i ∈ planesToCheck code.ec code.boundaries, 2 ^ ((k ^ 2 + 15 * k) / 2 + 1) + 8 ≤ code.dims i) :
    swapFailure X code pts delta p g "UF" o ≤ code.syndrome.length * (2 ^ 65 * (cvRate delta + 4 * √(√p))) ^ (2 ^ k) := by
  have hr0 : 0 ≤ cvRate delta := by unfold cvRate; positivity
  obtain ⟨𝒯, c1, c2, c3⟩ := C85_sets h X hk
  refine (swapFailure_le h hw X hpts hd hp hg hpg (fun T hT => (c2 T hT).2) fun A B hF => ?_).trans
    (sets_sum (by positivity) c1 fun T hT => (c2 T hT).1)
  obtain ⟨b, w, hb⟩ := hF
  obtain ⟨T, hT, hx⟩ := c3 o _ _ _ _ _ _ ho hb
  refine ⟨T, hT, fun x hxT => (hx x hxT).imp (fun h1 => by simpa using h1) fun h1 => ?_⟩
  have h2 : 0 < squeezedNeighbors code (swapAttrs pts A) x := by omega
  unfold squeezedNeighbors at h2
  obtain ⟨y, hy, hs⟩ := List.countP_pos_iff.1 h2
  refine ⟨y, hy, ?_⟩
  by_contra hc
  simp [swapAttrs, hc] at hs

/-- C86.  Threshold for a `CVLayer` with swap-outs. -/
theorem C86_swap_threshold {delta p : ℝ} (hd : 0 < delta) (hp : 0 ≤ p)
    (hr : 2 ^ 65 * (4 * √2 * Real.exp (-Real.pi / (136 * delta)) + 4 * √(√p)) < 1) (m : ℕ) {ε : ℝ} (hε : 0 < ε) : ∃ d₀ : ℕ, ∀ d, d₀ ≤ d →
    ∀ code : Code, IsCode code → (∀ x y w, PyDict.get? code.graph.edges s(x, y) = some w → w.1 = 1 ∨ w.1 = -1) →
    (∀ i, d ≤ code.dims i ∧ code.dims i ≤ m * d) → ∀ (X : Libs) (o : Opts) (pts : List V), o.method = "uniform" →
      pts.Perm (PyDict.keys code.graph.nodes) → ∀ g, 0 ≤ g → p + g ≤ 1 → swapFailure X code pts delta p g "UF" o < ε := by
  obtain ⟨d₀, hd₀⟩ := uf_limit (r := cvRate delta + 4 * √(√p)) (by unfold cvRate; positivity) hr m hε
  refine ⟨d₀, fun d hdd code h hw hdims X o pts ho hpts g hg hpg => ?_⟩
  obtain ⟨k, hk, hlt⟩ := hd₀ d hdd code h hdims
  exact (C86_swap_bound h hw X ho hpts hd hp hg hpg fun i _ => hk.trans (hdims i).1).trans_lt hlt

/-- Noise and swap-out probabilities below the threshold. -/
theorem exp_small {t : ℝ} (ht : t ≤ -50) : Real.exp t < 1 / 2 ^ 72 := by
  refine (Real.exp_le_exp.2 ht).trans_lt ?_
  rw [Real.exp_neg, inv_lt_comm₀ (Real.exp_pos _) (by norm_num), one_div, inv_inv]
  have h5 : (2.7182818283 : ℝ) < Real.exp 1 := Real.exp_one_gt_d9
  calc (2 ^ 72 : ℝ) < 2.7182818283 ^ 50 := by norm_num
    _ < Real.exp 1 ^ 50 := pow_lt_pow_left₀ h5 (by norm_num) (by norm_num)
    _ = Real.exp 50 := by rw [← Real.exp_nat_mul]; norm_num

theorem uf_swapRate_small {delta p : ℝ} (hd : 0 < delta) (h1 : delta ≤ 1 / 2200) (hp : p ≤ (1 / 2 ^ 70) ^ 4) :
    2 ^ 65 * (4 * √2 * Real.exp (-Real.pi / (136 * delta)) + 4 * √(√p)) < 1 := by
  have h2 : √2 < 1.5 := by
    rw [Real.sqrt_lt' (by norm_num)]
    norm_num
  have h3 : -Real.pi / (136 * delta) ≤ -50 := by
    rw [div_le_iff₀ (by positivity)]
    nlinarith [Real.pi_gt_d2]
  have h4 := exp_small h3
  have h7 : 0 < √2 := by positivity
  have h8 := Real.exp_pos (-Real.pi / (136 * delta))
  have h9 : √(√p) ≤ 1 / 2 ^ 70 := by
    rw [Real.sqrt_le_left (by norm_num), Real.sqrt_le_left (by norm_num)]
    rw [← pow_mul]
    exact hp
  have h10 : 4 * √2 * Real.exp (-Real.pi / (136 * delta)) ≤ 6 * (1 / 2 ^ 72) :=
    mul_le_mul (by linarith) h4.le h8.le (by norm_num)
  norm_num at h9 h10 ⊢
  linarith

/-- C86.  Simulations of Union-Find with a `CVLayer` in the initial sampling order with `delta` at most 1/2200 and swap-out probability at most `2⁻²⁸⁰`:
for large codes, whatever the number of trials and ranks, the expected error rate is below `ε`. -/
theorem C86_swap_simulation {delta p : ℝ} (hd : 0 < delta) (h1 : delta ≤ 1 / 2200) (h0 : 0 ≤ p) (hp : p ≤ (1 / 2 ^ 70) ^ 4) {ε : ℝ} (hε : 0 < ε) :
    ∃ d₀ : ℕ, ∀ d, d₀ ≤ d → ∀ code : Code, IsCode code →
    (∀ x y w, PyDict.get? code.graph.edges s(x, y) = some w → w.1 = 1 ∨ w.1 = -1) → (∀ i, code.dims i = d) →
    ∀ (X : Libs) (o : Opts), o.method = "uniform" → ∀ (pts : List V) (L₀ : Noise.Layer V), Noise.OnCode code pts delta (some p) .initial none L₀ →
    ∀ {Ω : Type} [MeasurableSpace Ω] (μ : Measure Ω) (Z : ℕ × ℕ × ℕ → Ω → ℝ), Noise.NormalIid Z μ →
    ∀ (num : ℕ × ℕ → Ω → ℕ) (choice : ℕ × ℕ → Ω → ℕ → List ℕ), Noise.SwapRng pts.length p num choice μ →
    IndepFun (fun ω j => (num j ω, choice j ω)) (fun ω j => Z j ω) μ →
    ∀ (u : ℕ → ℕ → ℕ → ℝ) (b : ℕ → ℕ → ℕ → ℤ) (trials size : ℕ), 0 < size → ∀ errors : Ω → ℤ,
    (∀ ω, ∃ err, monteCarlo (ecTrial X code "UF" o (cvModel code pts)) trials size
      (fun r => ((L₀, fun k => (Noise.squeezedDraw (num (r, k) ω) (choice (r, k) ω), ⟨fun i => Z (r, k, i) ω, u r k, b r k⟩)),
        fun _ => none)) = some err ∧ errors ω = err 0) →
    ∫ ω, (errors ω : ℝ) ∂μ ≤ trials * ε := by
  have hp1 : p ≤ 1 := hp.trans (pow_le_one₀ (by positivity) (by norm_num))
  obtain ⟨d₀, hd₀⟩ := C86_swap_threshold hd h0 (uf_swapRate_small hd h1 hp) 1 hε
  refine ⟨d₀, fun d hdd code h hw hdims X o ho pts L₀ hL Ω _ μ Z hZ num choice hC hind u b trials size hs errors he => ?_⟩
  have : IsProbabilityMeasure μ := hZ.indep.isProbabilityMeasure
  rw [C68_mean h X hp1 hL hd (Or.inr rfl) ho trials hs hZ hC hind u b errors he]
  refine (Finset.sum_le_card_nsmul _ _ ε fun t _ => ?_).trans (by rw [Finset.card_range, nsmul_eq_mul])
  rw [← Noise.swapGkpProb_closed hp1]
  have hb := swapGkpProb_bounds h0 hp1 (t / size + 1)
  exact (hd₀ d hdd code h hw (fun i => by rw [hdims i, one_mul]; exact ⟨le_rfl, le_rfl⟩) X o pts ho hL.perm _ hb.1 hb.2).le

/-- C86.  The same without swap-outs. -/
theorem C86_simulation {delta : ℝ} (hd : 0 < delta) (h1 : delta ≤ 1 / 2200) {ε : ℝ} (hε : 0 < ε) : ∃ d₀ : ℕ, ∀ d, d₀ ≤ d → ∀ code : Code,
    IsCode code → (∀ x y w, PyDict.get? code.graph.edges s(x, y) = some w → w.1 = 1 ∨ w.1 = -1) → (∀ i, code.dims i = d) →
    ∀ (X : Libs) (o : Opts), o.method = "uniform" → ∀ (pts : List V) (L₀ : Noise.Layer V), Noise.OnCode code pts delta none .initial none L₀ →
    ∀ {Ω : Type} [MeasurableSpace Ω] (μ : Measure Ω) (Z : ℕ × ℕ × ℕ → Ω → ℝ), Noise.NormalIid Z μ →
    ∀ (draw : ℕ → ℕ → List ℕ), (∀ r k, ∀ i ∈ draw r k, i < pts.length) → ∀ (u : ℕ → ℕ → ℕ → ℝ) (b : ℕ → ℕ → ℕ → ℤ) (trials size : ℕ), 0 < size →
    ∀ errors : Ω → ℤ, (∀ ω, ∃ err, monteCarlo (ecTrial X code "UF" o (cvModel code pts)) trials size
      (fun r => ((L₀, fun k => (draw r k, ⟨fun i => Z (r, k, i) ω, u r k, b r k⟩)), fun _ => none)) = some err ∧ errors ω = err 0) →
    ∫ ω, (errors ω : ℝ) ∂μ ≤ trials * ε := by
  have hr := uf_swapRate_small hd h1 (p := 0) (by norm_num)
  rw [Real.sqrt_zero, Real.sqrt_zero, mul_zero, add_zero] at hr
  obtain ⟨d₀, hd₀⟩ := C86_threshold hd hr 1 hε
  refine ⟨d₀, fun d hdd code h hw hdims X o ho pts L₀ hL Ω _ μ Z hZ draw hdr u b trials size hs errors he => ?_⟩
  have : IsProbabilityMeasure μ := hZ.indep.isProbabilityMeasure
  rw [C65_mean h X hL hd (Or.inr rfl) ho trials hs hZ draw hdr u b errors he]
  have h2 := (hd₀ d hdd code h hw (fun i => by rw [hdims i, one_mul]; exact ⟨le_rfl, le_rfl⟩) X o pts ho hL.perm).le
  have h3 : (0 : ℝ) ≤ noisyFailure X code pts delta "UF" o := measureReal_nonneg
  have h4 : ((List.range trials).countP fun i => decide (i / size % 2 = 0)) ≤ trials := by
    have := List.countP_le_length (p := fun i => decide (i / size % 2 = 0)) (l := List.range trials)
    rwa [List.length_range] at this
  refine mul_le_mul (by exact_mod_cast h4) h2 h3 (by positivity)

/-- Every neighbour of a qubit holds one of the micronodes its own micronodes are linked to. -/
theorem nbList_mem {code : Code} {M₀ : Noise.Macro EGraph.Pt} {cs : List EGraph.Pt} (hok : Noise.MacroOk M₀ cs)
    (h7 : ∀ x ∈ PyDict.keys code.graph.nodes, (M₀.around (Noise.toPt x)).Perm ((neighbors code x).map Noise.toPt))
    {x : V} (hx : x ∈ PyDict.keys code.graph.nodes) (hk : cs.idxOf (Noise.toPt x) < cs.length) {y : V} (hy : y ∈ neighbors code x) :
    ∃ i ∈ Noise.nbList M₀ (cs.idxOf (Noise.toPt x)), i / 4 = cs.idxOf (Noise.toPt y) := by
  have hm : Noise.toPt y ∈ M₀.around (Noise.toPt x) := (h7 x hx).mem_iff.2 (List.mem_map_of_mem hy)
  unfold Noise.Macro.around at hm
  obtain ⟨q, hq, he⟩ := List.mem_map.1 hm
  have hp := hok.links_perm hk q
  rw [List.getElem_idxOf] at hp
  obtain ⟨i, hi, hiq⟩ := List.mem_map.1 (hp.mem_iff.2 hq)
  obtain ⟨-, q', hq', -⟩ := hok.nbList_get hk hi
  rw [hq', Option.getD_some] at hiq
  subst hiq
  have h1 := hok.centre i q' hq'
  rw [he] at h1
  obtain ⟨h2, h3⟩ := List.getElem?_eq_some_iff.1 h1
  exact ⟨i, hi, by rw [← h3, hok.csNodup.idxOf_getElem]⟩

variable {Ω : Type*} [MeasurableSpace Ω] {μ : Measure Ω}

/-- C86.  A trial with a `CVMacroLayer` whose generator behaves as documented. -/
theorem C86_macro_bound (X : Libs) {code : Code} {delta p : ℝ} {M₀ : Noise.Macro EGraph.Pt} (hM : Noise.OnPolarCode code delta (some p) M₀)
    (hd : 0 < delta) (h0 : 0 ≤ p) (hp1 : p < 1) {o : Opts} (ho : o.method = "uniform") {R : Ω → Noise.MacroRnd}
    (hR : MacroRng M₀.layer.pts.length p R μ)
    {k : ℕ} (hk : ∀ i ∈ planesToCheck code.ec code.boundaries, 2 ^ ((k ^ 2 + 15 * k) / 2 + 1) + 8 ≤ code.dims i) :
    μ.real {ω | SingleTrial X code "UF" o M₀ (R ω) 1} ≤ code.syndrome.length * (2 ^ 65 * (macroRate delta + 4 * p)) ^ (2 ^ k) := by
  obtain ⟨⟨num, choice, hC, hdraw⟩, hlen, hZ, hind⟩ := hR
  have : IsProbabilityMeasure μ := hZ.indep.isProbabilityMeasure
  have h := hM.valid
  have hr0 : 0 ≤ macroRate delta + 4 * p := by unfold macroRate; positivity
  obtain ⟨cs, hok, -, -, hsw, -, h6, h7⟩ := hM.ok
  have hset : {ω | SingleTrial X code "UF" o M₀ (R ω) 1} =
      {ω | ∃ bits' w, correctAll X code "UF" o (macroAttrs M₀ cs (R ω).draw) (fun _ => none) false
        (fun x => decide (x ∈ macroFlips code M₀ cs (macroData (R ω)))) = some (bits', w, false)} := by
    ext ω
    have hrok : MacroRndOk M₀ (R ω) := ⟨fun i hi => by
      rw [hdraw] at hi
      exact (hC.arrangement () ω _ (hC.range () ω)).2.2 i hi, hlen ω⟩
    exact single_fails X hM (Or.inr rfl) ho hok hrok
  rw [hset]
  refine C85_noise h X ho hk (fun ω => macroAttrs M₀ cs (R ω).draw) (fun _ _ => none)
    (fun ω x => decide (x ∈ macroFlips code M₀ cs (macroData (R ω)))) false hr0 fun T hT => ?_
  refine (measureReal_mono (fun ω hω => ?_) (measure_ne_top _ _)).trans (macro_bad_le hM hd h0 hok hC () hdraw hZ hind hT)
  intro x hx
  refine (hω x hx).imp (fun h1 => by simpa using h1) fun h1 => ?_
  have h2 : 0 < squeezedNeighbors code (macroAttrs M₀ cs (R ω).draw) x := by omega
  unfold squeezedNeighbors at h2
  obtain ⟨y, hy, hs⟩ := List.countP_pos_iff.1 h2
  have hxn := h.syndrome_node (hT x hx)
  obtain ⟨i, hi, hiy⟩ := nbList_mem hok h7 hxn (List.idxOf_lt_length_of_mem ((h6 _).2 ⟨x, hxn, rfl⟩)) hy
  refine ⟨i, hi, ?_⟩
  have hG : macroG M₀ (R ω).draw i = false := by
    by_contra hc
    rw [Bool.not_eq_false] at hc
    have := (Noise.starOf_gkp (macroG M₀ (R ω).draw) (cs.idxOf (Noise.toPt y))).2 ⟨i, hiy, hc⟩
    simp [macroAttrs, this] at hs
  rw [macroG_set hsw] at hG
  simp only [decide_eq_false_iff_not, not_not] at hG
  unfold Noise.modeSet at hG
  rw [if_neg hp1.ne] at hG
  split_ifs at hG
  · simp at hG
  · exact List.mem_toFinset.1 hG

/-- C86.  Threshold for a `CVMacroLayer`. -/
theorem C86_macro_threshold {delta p : ℝ} (hd : 0 < delta) (h0 : 0 ≤ p)
    (hr : 2 ^ 65 * (64 * √2 * Real.exp (-Real.pi / (64 * delta)) + 4 * p) < 1) (m : ℕ)
    {ε : ℝ} (hε : 0 < ε) : ∃ d₀ : ℕ, ∀ d, d₀ ≤ d → ∀ (code : Code) (M₀ : Noise.Macro EGraph.Pt), Noise.OnPolarCode code delta (some p) M₀ →
    (∀ i, d ≤ code.dims i ∧ code.dims i ≤ m * d) → ∀ (X : Libs) (o : Opts), o.method = "uniform" →
    ∀ {Ω : Type} [MeasurableSpace Ω] (μ : Measure Ω) (R : Ω → Noise.MacroRnd), MacroRng M₀.layer.pts.length p R μ →
      μ.real {ω | SingleTrial X code "UF" o M₀ (R ω) 1} < ε := by
  obtain ⟨d₀, hd₀⟩ := uf_limit (r := macroRate delta + 4 * p) (by unfold macroRate; positivity) hr m hε
  refine ⟨d₀, fun d hdd code M₀ hM hdims X o ho Ω _ μ R hR => ?_⟩
  obtain ⟨k, hk, hlt⟩ := hd₀ d hdd code hM.valid hdims
  have h3 : 0 < 64 * √2 * Real.exp (-Real.pi / (64 * delta)) := by positivity
  exact (C86_macro_bound X hM hd h0 (by linarith) ho hR fun i _ => hk.trans (hdims i).1).trans_lt hlt

theorem uf_macroRate_small {delta p : ℝ} (hd : 0 < delta) (h1 : delta ≤ 1 / 1100) (hp : p ≤ 1 / 2 ^ 68) :
    2 ^ 65 * (64 * √2 * Real.exp (-Real.pi / (64 * delta)) + 4 * p) < 1 := by
  have h2 : √2 < 1.5 := by
    rw [Real.sqrt_lt' (by norm_num)]
    norm_num
  have h3 : -Real.pi / (64 * delta) ≤ -53 := by
    rw [div_le_iff₀ (by positivity)]
    nlinarith [Real.pi_gt_d2]
  have h4 : Real.exp (-Real.pi / (64 * delta)) < 1 / 2 ^ 75 := by
    refine (Real.exp_le_exp.2 h3).trans_lt ?_
    rw [Real.exp_neg, inv_lt_comm₀ (Real.exp_pos _) (by norm_num), one_div, inv_inv]
    have h5 : (2.7182818283 : ℝ) < Real.exp 1 := Real.exp_one_gt_d9
    calc (2 ^ 75 : ℝ) < 2.7182818283 ^ 53 := by norm_num
      _ < Real.exp 1 ^ 53 := pow_lt_pow_left₀ h5 (by norm_num) (by norm_num)
      _ = Real.exp 53 := by rw [← Real.exp_nat_mul]; norm_num
  have h8 := Real.exp_pos (-Real.pi / (64 * delta))
  have h10 : 64 * √2 * Real.exp (-Real.pi / (64 * delta)) ≤ 96 * (1 / 2 ^ 75) := mul_le_mul (by linarith) h4.le h8.le (by norm_num)
  norm_num at hp h10 ⊢
  linarith

/-- C86.  Simulations of Union-Find with a `CVMacroLayer` with `delta` at most 1/1100 and swap-out probability at most `2⁻⁶⁸`: for large codes, whatever
the number of trials and ranks, the expected error rate is below `ε`. -/
theorem C86_macro_simulation {delta p : ℝ} (hd : 0 < delta) (h1 : delta ≤ 1 / 1100) (h0 : 0 ≤ p) (hp : p ≤ 1 / 2 ^ 68) {ε : ℝ} (hε : 0 < ε) :
    ∃ d₀ : ℕ, ∀ d, d₀ ≤ d → ∀ (code : Code) (M₀ : Noise.Macro EGraph.Pt), Noise.OnPolarCode code delta (some p) M₀ → (∀ i, code.dims i = d) →
    ∀ (X : Libs) (o : Opts), o.method = "uniform" → ∀ {Ω : Type} [MeasurableSpace Ω] (μ : Measure Ω) (R : ℕ × ℕ → Ω → Noise.MacroRnd),
    (∀ j, MacroRng M₀.layer.pts.length p (R j) μ) → (∀ j, Measurable fun ω => macroData (R j ω)) →
    (∀ j j', μ.map (fun ω => macroData (R j ω)) = μ.map (fun ω => macroData (R j' ω))) → ∀ (trials size : ℕ), 0 < size →
    ∀ errors : Ω → ℤ, (∀ ω, ∃ err, monteCarlo (ecTrial X code "UF" o macroModel) trials size
      (fun r => ((M₀, fun k => R (r, k) ω), fun _ => none)) = some err ∧ errors ω = err 0) →
    ∫ ω, (errors ω : ℝ) ∂μ ≤ trials * ε := by
  obtain ⟨d₀, hd₀⟩ := C86_macro_threshold hd h0 (uf_macroRate_small hd h1 hp) 1 hε
  refine ⟨d₀, fun d hdd code M₀ hM hdims X o ho Ω _ μ R hR hm hi trials size hs errors he => ?_⟩
  have : IsProbabilityMeasure μ := (hR (0, 0)).2.2.1.indep.isProbabilityMeasure
  have hok : ∀ j ω, MacroRndOk M₀ (R j ω) := fun j ω => by
    obtain ⟨⟨num, choice, hC, hdraw⟩, hlen, -⟩ := hR j
    exact ⟨fun i hi => by rw [hdraw] at hi; exact (hC.arrangement () ω _ (hC.range () ω)).2.2 i hi, hlen ω⟩
  rw [C74_mean X hM (Or.inr rfl) ho trials hs hm hi hok errors he]
  exact mul_le_mul_of_nonneg_left
    (hd₀ d hdd code M₀ hM (fun i => by rw [hdims i, one_mul]; exact ⟨le_rfl, le_rfl⟩) X o ho μ (R (0, 0)) (hR (0, 0))).le (by positivity)

/-! ### The hypotheses can be met -/

-- simulations of `CVLayer`s without swap-outs, with swap-outs, and of `CVMacroLayer`s
example (d : ℕ) (hd : 2 ≤ d) (trials : ℕ) : ∃ (Ω : Type) (_ : MeasurableSpace Ω) (μ : Measure Ω) (Z : ℕ × ℕ × ℕ → Ω → ℝ) (code : Code)
    (pts : List V) (L₀ : Noise.Layer V) (X : Libs) (errors : Ω → ℤ), Noise.NormalIid Z μ ∧ IsCode code ∧ (∀ i, code.dims i = d) ∧
    Noise.OnCode code pts (1 / 2200) none .initial none L₀ ∧
    (∀ x y w, PyDict.get? code.graph.edges s(x, y) = some w → w.1 = 1 ∨ w.1 = -1) ∧
    ∀ ω, ∃ err, monteCarlo (ecTrial X code "UF" {} (cvModel code pts)) trials 2
      (fun r => ((L₀, fun k => ([], ⟨fun i => Z (r, k, i) ω, fun _ => 0, fun _ => 0⟩)), fun _ => none)) = some err ∧ errors ω = err 0 := by
  obtain ⟨code, h, hdim, -⟩ := C54_constructor_total idOrder .primal .periodic (dims := fun _ => d) (by simp [hd]) (some alternatingPolarity)
  have hcode : IsCode code := ⟨idOrder, _, _, _, _, by simp [hd], h⟩
  obtain ⟨L, hL⟩ : ∃ L, Noise.codeLayer code (PyDict.keys code.graph.nodes) (1 / 2200) none .initial none = some L := by
    unfold Noise.codeLayer
    rw [(Noise.C53_constructor none none).2.1 rfl]
    exact ⟨_, rfl⟩
  have hon : Noise.OnCode code _ (1 / 2200) none .initial none L := ⟨List.Perm.refl _, hL⟩
  obtain ⟨X, -⟩ := libs_exist .networkx
  obtain ⟨Ω, m, μ, hp, Z, hZ⟩ := Noise.normalIid_exists (ℕ × ℕ × ℕ)
  have hsim : ∀ ω, ∃ err, monteCarlo (ecTrial X code "UF" {} (cvModel code (PyDict.keys code.graph.nodes))) trials 2
      (fun r => ((L, fun k => ([], ⟨fun i => Z (r, k, i) ω, fun _ => 0, fun _ => 0⟩)), fun _ => none)) = some err := fun ω => by
    obtain ⟨err, e, -⟩ := C65_half hcode X hon (by norm_num) (name := "UF") (o := {}) (Or.inl ⟨rfl, Or.inr rfl⟩) trials two_pos
      (fun r k => ([], ⟨fun i => Z (r, k, i) ω, fun _ => 0, fun _ => 0⟩)) (by simp)
    exact ⟨err, e⟩
  choose err herr using hsim
  refine ⟨Ω, m, μ, Z, code, _, L, X, fun ω => err ω 0, hZ, hcode, fun i => by rw [hdim], hon, Noise.pm_weights (by simp [hd]) h ?_,
    fun ω => ⟨err ω, herr ω, rfl⟩⟩
  intro u v
  simp only [weightOf, alternatingPolarity]
  split_ifs
  · exact neg_one_pow_eq_or ℤ _
  · exact neg_one_pow_eq_or ℤ _
  · exact neg_one_pow_eq_or ℤ _
  · exact Or.inl rfl

example (d : ℕ) (hd : 2 ≤ d) (trials : ℕ) : ∃ (Ω : Type) (_ : MeasurableSpace Ω) (μ : Measure Ω) (Z : ℕ × ℕ × ℕ → Ω → ℝ) (code : Code)
    (pts : List V) (L₀ : Noise.Layer V) (X : Libs) (num : ℕ × ℕ → Ω → ℕ) (choice : ℕ × ℕ → Ω → ℕ → List ℕ) (errors : Ω → ℤ),
    Noise.NormalIid Z μ ∧ IsCode code ∧ (∀ i, code.dims i = d) ∧ Noise.OnCode code pts (1 / 2200) (some ((1 / 2 ^ 70) ^ 4)) .initial none L₀ ∧
    (∀ x y w, PyDict.get? code.graph.edges s(x, y) = some w → w.1 = 1 ∨ w.1 = -1) ∧ Noise.SwapRng pts.length ((1 / 2 ^ 70) ^ 4) num choice μ ∧
    IndepFun (fun ω j => (num j ω, choice j ω)) (fun ω j => Z j ω) μ ∧
    ∀ ω, ∃ err, monteCarlo (ecTrial X code "UF" {} (cvModel code pts)) trials 2
      (fun r => ((L₀, fun k => (Noise.squeezedDraw (num (r, k) ω) (choice (r, k) ω), ⟨fun i => Z (r, k, i) ω, fun _ => 0, fun _ => 0⟩)),
        fun _ => none)) = some err ∧ errors ω = err 0 := by
  obtain ⟨code, h, hdim, -⟩ := C54_constructor_total idOrder .primal .periodic (dims := fun _ => d) (by simp [hd]) (some alternatingPolarity)
  have hcode : IsCode code := ⟨idOrder, _, _, _, _, by simp [hd], h⟩
  set pts := PyDict.keys code.graph.nodes with hpts
  obtain ⟨L, hL⟩ : ∃ L, Noise.codeLayer code pts (1 / 2200) (some ((1 / 2 ^ 70) ^ 4)) .initial none = some L := by
    unfold Noise.codeLayer
    rw [(Noise.C53_constructor (some ((1 / 2 ^ 70) ^ 4)) none).2.1 rfl]
    exact ⟨_, rfl⟩
  have hon : Noise.OnCode code pts (1 / 2200) (some ((1 / 2 ^ 70) ^ 4)) .initial none L := ⟨List.Perm.refl _, hL⟩
  obtain ⟨X, -⟩ := libs_exist .networkx
  obtain ⟨Ω₁, m₁, μ₁, hp₁, Z, hZ⟩ := Noise.normalIid_exists (ℕ × ℕ × ℕ)
  obtain ⟨Ω₂, m₂, μ₂, hp₂, num, choice, hC⟩ := Noise.swapRng_exists (ℕ × ℕ) pts.length (p := (1 / 2 ^ 70) ^ 4) (by norm_num) (by norm_num)
  have hsnd : MeasurePreserving (Prod.snd : Ω₂ × Ω₁ → Ω₁) (μ₂.prod μ₁) μ₁ := measurePreserving_snd
  have hfst : MeasurePreserving (Prod.fst : Ω₂ × Ω₁ → Ω₂) (μ₂.prod μ₁) μ₂ := measurePreserving_fst
  have hind : IndepFun (fun (ω : Ω₂ × Ω₁) j => (num j ω.1, choice j ω.1)) (fun ω j => Z j ω.2) (μ₂.prod μ₁) :=
    indepFun_prod (X := fun ω j => (num j ω, choice j ω)) (Y := fun ω j => Z j ω)
      (measurable_pi_lambda _ fun j => (hC.measNum j).prodMk (hC.measChoice j)) (measurable_pi_lambda _ hZ.meas)
  have hsim : ∀ ω : Ω₂ × Ω₁, ∃ err, monteCarlo (ecTrial X code "UF" {} (cvModel code pts)) trials 2
      (fun r => ((L, fun k => (Noise.squeezedDraw (num (r, k) ω.1) (choice (r, k) ω.1), ⟨fun i => Z (r, k, i) ω.2, fun _ => 0, fun _ => 0⟩)),
        fun _ => none)) = some err := fun ω => by
    obtain ⟨err, e, -⟩ := C59_cv hcode X hon (by norm_num) (name := "UF") (o := {}) (Or.inl ⟨rfl, Or.inr rfl⟩) trials two_pos
      (fun r k => (Noise.squeezedDraw (num (r, k) ω.1) (choice (r, k) ω.1), ⟨fun i => Z (r, k, i) ω.2, fun _ => 0, fun _ => 0⟩))
      fun r _ k i hi => (hC.arrangement _ ω.1 _ (hC.range _ ω.1)).2.2 i hi
    exact ⟨err, e⟩
  choose err herr using hsim
  refine ⟨Ω₂ × Ω₁, inferInstance, μ₂.prod μ₁, fun j ω => Z j ω.2, code, pts, L, X, fun j ω => num j ω.1, fun j ω => choice j ω.1,
    fun ω => err ω 0, hZ.of_map hsnd, hcode, fun i => by rw [hdim], hon, Noise.pm_weights (by simp [hd]) h ?_, hC.of_map hfst, hind,
    fun ω => ⟨err ω, herr ω, rfl⟩⟩
  intro u v
  simp only [weightOf, alternatingPolarity]
  split_ifs
  · exact neg_one_pow_eq_or ℤ _
  · exact neg_one_pow_eq_or ℤ _
  · exact neg_one_pow_eq_or ℤ _
  · exact Or.inl rfl

example (d : ℕ) (hd : 2 ≤ d) (trials : ℕ) : ∃ (Ω : Type) (_ : MeasurableSpace Ω) (μ : Measure Ω) (R : ℕ × ℕ → Ω → Noise.MacroRnd) (code : Code)
    (M₀ : Noise.Macro EGraph.Pt) (X : Libs) (errors : Ω → ℤ), Noise.OnPolarCode code (1 / 1100) (some (1 / 2 ^ 68)) M₀ ∧ (∀ i, code.dims i = d) ∧
    (∃ o, surfaceCode o .primal .periodic (fun _ => d) (some alternatingPolarity) = some code) ∧
    (∀ j, MacroRng M₀.layer.pts.length (1 / 2 ^ 68) (R j) μ) ∧ (∀ j, Measurable fun ω => macroData (R j ω)) ∧
    (∀ j j', μ.map (fun ω => macroData (R j ω)) = μ.map (fun ω => macroData (R j' ω))) ∧
    ∀ ω, ∃ err, monteCarlo (ecTrial X code "UF" {} macroModel) trials 2
      (fun r => ((M₀, fun k => R (r, k) ω), fun _ => none)) = some err ∧ errors ω = err 0 := by
  obtain ⟨code, h, hdim, -⟩ := C54_constructor_total idOrder .primal .periodic (dims := fun _ => d) (by simp [hd]) (some alternatingPolarity)
  obtain ⟨oriented, ho⟩ := Noise.oriented_exists code
  obtain ⟨M₀, -, hM, -⟩ := Noise.C56_constructor (Noise.polarity_unit _ (Or.inr rfl)) (dims := fun _ => d) (by simp [hd]) h ho (delta := 1 / 1100) (by norm_num) (some (1 / 2 ^ 68))
  obtain ⟨X, -⟩ := libs_exist .networkx
  obtain ⟨Ω, m, μ, R, h1, h2, -, h3⟩ := macroRng_exists M₀.layer.pts.length (p := 1 / 2 ^ 68) (by norm_num) (by norm_num)
  have hsim : ∀ ω, ∃ err, monteCarlo (ecTrial X code "UF" {} macroModel) trials 2
      (fun r => ((M₀, fun k => R (r, k) ω), fun _ => none)) = some err := fun ω => by
    obtain ⟨err, _, e, -⟩ := C74_errors X hM (name := "UF") (o := {}) (Or.inr rfl) rfl trials two_pos (fun r k => R (r, k) ω) fun r k => by
      obtain ⟨⟨num, choice, hC, hdraw⟩, hlen, -⟩ := h1 (r, k)
      exact ⟨fun i hi => by rw [hdraw] at hi; exact (hC.arrangement () ω _ (hC.range () ω)).2.2 i hi, hlen ω⟩
    exact ⟨err, e⟩
  choose err herr using hsim
  exact ⟨Ω, m, μ, R, code, M₀, X, fun ω => err ω 0, hM, fun i => by rw [hdim], ⟨_, h⟩, h1, h2, h3, fun ω => ⟨err ω, herr ω, rfl⟩⟩

end Flamingpy.Trial
