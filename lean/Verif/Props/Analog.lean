import Verif.Props.SwapMwpm
import Verif.Props.UfErasureRate
import Verif.Proofs.AnalogWeight

/-!
# C101: MWPM with blueprint weights from the outcomes of a `CVLayer`
-/

namespace Flamingpy.Trial

open Flamingpy Flamingpy.SurfaceCode Flamingpy.UnionFind Flamingpy.Weights Flamingpy.Sim MeasureTheory ProbabilityTheory

/-- Blueprint weights that are computed from the outcomes for the noise parameter `d₀`: either rounded to integers, or floats that are accurate
up to 1 for the sizes that occur, with the library that accepts them. -/
structure AnalogOpts (X : Libs) (o : Opts) (d₀ : ℝ) : Prop where
  method : o.method = "blueprint"
  computed : o.probPrecomputed = false
  delta : o.delta = some d₀
  pos : 0 < d₀
  weights : (o.integer = true ∧ 1 ≤ o.multiplier) ∨ (o.integer = false ∧ X.bk = .networkx ∧
    ∀ x : ℝ, 0 ≤ x → x ≤ Real.pi / d₀ + 3 → |(X.float.fl x : ℝ) - x| ≤ 1)

theorem AnalogOpts.multiplier {X : Libs} {o : Opts} {d₀ : ℝ} (ho : AnalogOpts X o d₀) (hi : o.integer = true) : 1 ≤ o.multiplier := by
  rcases ho.weights with ⟨-, h⟩ | ⟨h, -⟩
  · exact h
  · rw [hi] at h; cases h

/-- Specification: the probability that MWPM with weights from the outcomes fails. -/
noncomputable def analogFailure (X : Libs) (code : Code) (pts : List V) (delta : ℝ) (o : Opts) : ℝ :=
  (Measure.infinitePi fun _ : ℕ => gaussianReal 0 1).real
    {z | Fails X code "MWPM" o (outcomeAttrs code pts delta z) (cvFlips code pts delta z)}

theorem mem_cvFlips {code : Code} {pts : List V} {delta : ℝ} {z : ℕ → ℝ} {x : V} :
    x ∈ cvFlips code pts delta z ↔ x ∈ code.syndrome ∧ Gkp.gkpBinner (cvOutcome code pts delta z x) = 1 := by
  unfold cvFlips cvOutcome
  rw [Finset.mem_filter, List.mem_toFinset]

theorem cvOutcome_rest {code : Code} {pts : List V} {delta : ℝ} {z : ℕ → ℝ} {x : V} (hx : x ∈ pts) :
    restNoise code pts delta ∅ (Finset.range pts.length) z x = cvOutcome code pts delta z x := by
  classical
  have hr : ∀ y ∈ pts, pts.idxOf y ∈ Finset.range pts.length := fun y hy => Finset.mem_range.2 (List.idxOf_lt_length_of_mem hy)
  unfold restNoise cvOutcome
  rw [Finset.filter_true_of_mem fun y _ => Finset.notMem_empty _]
  congr 1
  · unfold swapP
    rw [if_pos (by simpa using hr x hx)]
  · refine Finset.sum_congr rfl fun y hy => ?_
    unfold swapQ
    rw [if_neg (Finset.notMem_empty _), if_pos (hr y (List.mem_toFinset.1 hy))]

theorem neighbors_length {code : Code} (h : IsCode code) {x : V} (hx : x ∈ code.syndrome) : (neighbors code x).length ≤ 4 :=
  adj_length h (h.syndrome_node hx)

/-- If the outcome of a qubit is small its weight is large if it is not flipped and small if it is. -/
theorem outcome_weight {n : ℕ} (hn : n ≤ 4) {m d₀ M W x : ℝ} (hm0 : 0 ≤ m) (hm : m ≤ n + 1) (hd : 0 < d₀) (hM : 1 ≤ M)
    (hW : |W - M * (centrality x / ((n + 1) * d₀))| ≤ 4 * M) :
    m * (Real.pi / 20 - 2 * d₀) + m * d₀ / (2 * M) * ((if Gkp.gkpBinner x = 1 then 1 else -1) * W) ≤ x ^ 2 := by
  have hs := outcome_sq x
  have hpi := Real.pi_pos
  obtain ⟨ha0, ha1⟩ := centrality_range x
  set a := centrality x with ha
  set σ : ℝ := if Gkp.gkpBinner x = 1 then 1 else -1 with hσ
  have hs1 : Real.pi / 4 + σ * a / 2 ≤ x ^ 2 := by
    have : (if Gkp.gkpBinner x = 1 then (2 : ℝ) else -2) = 2 * σ := by rw [hσ]; split_ifs <;> norm_num
    rw [this] at hs
    by_contra hc
    push Not at hc
    have := mul_lt_mul_of_pos_left hc (show 0 < 4 * Real.pi by positivity)
    nlinarith
  have hn4 : (n : ℝ) ≤ 4 := by exact_mod_cast hn
  have hn1 : (0 : ℝ) < n + 1 := by positivity
  set u := m / (n + 1) with hu
  have hu1 : u ≤ 1 := (div_le_one hn1).2 hm
  have hu0 : 0 ≤ u := by positivity
  have hu5 : m / 5 ≤ u := div_le_div_of_nonneg_left hm0 hn1 (by linarith)
  have hσa : σ * a = σ * (a / ((n + 1) * d₀)) * ((n + 1) * d₀) := by field_simp
  have hMp : 0 < M := by linarith
  -- the weight
  have hw : σ * W / M - 4 ≤ σ * (a / ((n + 1) * d₀)) := by
    set t := a / ((n + 1) * d₀)
    have h1 := abs_le.1 hW
    have : σ * W ≤ M * (σ * t + 4) := by
      rcases (show σ = 1 ∨ σ = -1 by rw [hσ]; split_ifs <;> simp) with e | e <;> rw [e] <;> nlinarith [h1.1, h1.2]
    have := (div_le_iff₀' hMp).2 this
    linarith
  have hmu : u * ((n + 1) * d₀) = m * d₀ := by rw [hu]; field_simp
  have h1 : u * (Real.pi / 4 + σ * a / 2) ≤ x ^ 2 := (mul_le_mul_of_nonneg_left hs1 hu0).trans (mul_le_of_le_one_left (sq_nonneg x) hu1)
  have h2 : u * (Real.pi / 4 + σ * a / 2) = u * (Real.pi / 4) + m * d₀ / 2 * (σ * (a / ((n + 1) * d₀))) := by
    rw [← hmu]
    field_simp
  have h3 : m * d₀ / 2 * (σ * W / M - 4) ≤ m * d₀ / 2 * (σ * (a / ((n + 1) * d₀))) := mul_le_mul_of_nonneg_left hw (by positivity)
  have h4 : m * d₀ / (2 * M) * (σ * W) = m * d₀ / 2 * (σ * W / M) := by field_simp
  rw [h4]
  nlinarith

/-- The weight of a qubit. -/
noncomputable def analogWeight (X : Libs) (code : Code) (o : Opts) (d₀ : ℝ) (out : V → ℝ) (x : V) : ℚ :=
  X.float.fl (toWeight o (clip (Gkp.zErrCond (((neighbors code x).length + 1) * d₀) (out x))))

/-- The factor of the weights. -/
noncomputable def scale (o : Opts) : ℝ := if o.integer then o.multiplier else 1

theorem scale_one {X : Libs} {o : Opts} {d₀ : ℝ} (ho : AnalogOpts X o d₀) : 1 ≤ scale o := by
  unfold scale
  split_ifs with hi
  · exact ho.multiplier hi
  · exact le_rfl

/-- C101.  The weight of a qubit is close to its centrality over the variance. -/
theorem C101_weight {X : Libs} {o : Opts} {d₀ : ℝ} (ho : AnalogOpts X o d₀) (code : Code) (out : V → ℝ) (x : V) :
    |(analogWeight X code o d₀ out x : ℝ) - scale o * (centrality (out x) / (((neighbors code x).length + 1) * d₀))| ≤ 4 * scale o := by
  have hd := ho.pos
  have hv : 0 < ((neighbors code x).length + 1) * d₀ := mul_pos (by positivity) hd
  unfold analogWeight scale
  rcases ho.weights with ⟨hi, hM⟩ | ⟨hi, -, hfl⟩
  · obtain ⟨W, e1, e2⟩ := weight_close hi hM hv (out x)
    rw [e1, X.float.int, if_pos hi]
    exact_mod_cast e2
  · obtain ⟨h1, h2⟩ := log_close hv (out x)
    rw [hi]
    unfold toWeight
    rw [hi]
    simp only [Bool.false_eq_true, if_false, one_mul, mul_one]
    have hc := (centrality_range (out x)).2
    have hle : centrality (out x) / (((neighbors code x).length + 1) * d₀) ≤ Real.pi / d₀ := by
      refine div_le_div₀ Real.pi_pos.le hc hd ?_
      nlinarith [Nat.cast_nonneg (α := ℝ) (neighbors code x).length]
    have h3 := hfl _ h2 (by linarith [(abs_le.1 h1).2])
    rw [abs_le] at *
    constructor <;> linarith [h1.1, h1.2, h3.1, h3.2]

theorem fails_analog_iff {code : Code} (h : IsCode code) (X : Libs) {o : Opts} {d₀ : ℝ} (ho : AnalogOpts X o d₀) {pts : List V} {delta : ℝ}
    {z : ℕ → ℝ} {B : Finset V} : (Fails X code "MWPM" o (outcomeAttrs code pts delta z) B ↔
      ∃ r, correct code (mwpmDecoder X.bk X.paths X.matching (stabGraph X.bk X.sp code)
        (analogWeight X code o d₀ (cvOutcome code pts delta z))) false (fun x => decide (x ∈ B)) = some r ∧ r.2 = false) ∧
      ∀ x ∈ code.syndrome, 0 ≤ analogWeight X code o d₀ (cvOutcome code pts delta z) x := by
  classical
  set a := outcomeAttrs code pts delta z with ha
  have hb : BlueprintOk code o a := ⟨fun _ _ => ⟨_, rfl⟩, fun hc => absurd (ho.computed.symm.trans hc) (by decide),
    fun _ => ⟨⟨d₀, ho.delta, ho.pos⟩, fun q _ => ⟨_, rfl⟩⟩, ho.multiplier⟩
  have hsq : ∀ x, squeezedNeighbors code a x = 0 := fun x => by
    unfold squeezedNeighbors
    rw [List.countP_eq_zero]
    intro v _
    simp [ha, outcomeAttrs]
  have hq : ∀ x, qubitProb code o a x = Gkp.zErrCond (((neighbors code x).length + 1) * d₀) (cvOutcome code pts delta z x) := fun x => by
    unfold qubitProb
    rw [if_neg (by rw [ho.computed]; decide), ho.delta]
    rfl
  set W := analogWeight X code o d₀ (cvOutcome code pts delta z) with hW
  have hwv : Valid code "MWPM" o a := Or.inl ⟨rfl, Or.inr ⟨ho.method, hb⟩⟩
  obtain ⟨w, hw, hs, h0, -⟩ := weights_ok h hwv fun _ => none
  have hwW : ∀ x ∈ code.syndrome, w x = some (toWeight o (clip (Gkp.zErrCond (((neighbors code x).length + 1) * d₀) (cvOutcome code pts delta z x)))) := by
    intro x hx
    rw [assignNodes_blueprint h o ho.method a hb] at hw
    have := congrFun (Except.ok.inj hw) x
    rw [← this, if_pos hx, if_pos (by rw [hsq]; omega), hq x]
  have hcor : correct code (decoderFunc X code "MWPM" fun q => X.float.fl ((w q).getD 0)) false (fun x => decide (x ∈ B)) =
      correct code (mwpmDecoder X.bk X.paths X.matching (stabGraph X.bk X.sp code) W) false (fun x => decide (x ∈ B)) := by
    apply correct_congr
    unfold decoderFunc mwpmDecoder matchGraph
    simp only [if_true]
    rw [weightedEdges_congr h X.bk X.sp (w := fun q => X.float.fl ((w q).getD 0)) (w' := W)]
    intro x hx
    rw [hwW x hx, Option.getD_some]
    rfl
  refine ⟨?_, fun x hx => ?_⟩
  · unfold Fails
    simp only [correctAll_of hw hs, hcor, Option.map_eq_some_iff, Prod.mk.injEq]
    constructor
    · rintro ⟨_, _, r, h1, h2⟩
      exact ⟨r, h1, h2.2.2⟩
    · rintro ⟨r, h1, h2⟩
      exact ⟨_, _, r, h1, rfl, rfl, h2⟩
  · have := h0 rfl x hx
    rw [hwW x hx, Option.getD_some] at this
    exact X.float.nonneg _ this

/-- A failure of MWPM with weights from the outcomes: on some long trail the squares of the outcomes are large on average. -/
theorem analog_trail {code : Code} (h : IsCode code) (X : Libs) {o : Opts} {d₀ : ℝ} (ho : AnalogOpts X o d₀)
    (hd3 : ∀ i, boundsOf code.ec code.boundaries i = .periodic → 3 ≤ code.dims i) {m : ℝ} (hm0 : 0 ≤ m)
    (hm : ∀ x ∈ code.syndrome, m ≤ (neighbors code x).length + 1) {pts : List V} {delta : ℝ} {z : ℕ → ℝ} {d : ℕ}
    (hdim : ∀ i ∈ planesToCheck code.ec code.boundaries, d ≤ code.dims i)
    (hF : Fails X code "MWPM" o (outcomeAttrs code pts delta z) (cvFlips code pts delta z)) :
    ∃ S ∈ longTrails code d, S.card * (m * (Real.pi / 20 - 2 * d₀)) ≤ ∑ x ∈ S, cvOutcome code pts delta z x ^ 2 := by
  classical
  obtain ⟨hiff, hW0⟩ := fails_analog_iff h X ho (pts := pts) (delta := delta) (z := z) (B := cvFlips code pts delta z)
  obtain ⟨r, hcor, hr2⟩ := hiff.1 hF
  set B := cvFlips code pts delta z with hB
  set W := analogWeight X code o d₀ (cvOutcome code pts delta z) with hW
  have hW2 := C101_weight ho code (cvOutcome code pts delta z)
  rw [← hW] at hW2
  have hint : X.bk = .networkx ∨ ∀ x ∈ code.syndrome, ∃ n : ℤ, W x = n := by
    rcases ho.weights with ⟨hi, -⟩ | ⟨-, hb, -⟩
    · right
      intro x _
      rw [hW]
      unfold analogWeight toWeight
      rw [if_pos hi]
      exact ⟨_, X.float.int _⟩
    · exact Or.inl hb
  obtain ⟨x, s, L, k1, k2, k3, k4, ⟨i, hi, k5⟩, k6⟩ := heavy_trail_w h X.bk X.sp X.paths X.matching hW0
    hint (C35_condition h hd3 _) hcor hr2
  set S := (x :: L).toFinset with hS
  have hSs : ∀ y ∈ S, y ∈ code.syndrome := fun y hy => k3 y (List.mem_toFinset.1 hy)
  have hSsub : S ⊆ code.syndrome.toFinset := fun y hy => List.mem_toFinset.2 (hSs y hy)
  have hlen := hdim i hi
  rw [List.length_cons] at k5
  have hmax : L.length + 1 ≤ code.syndrome.length := by
    have := Finset.card_le_card hSsub
    rw [hS, List.toFinset_card_of_nodup k2, List.toFinset_card_of_nodup h.ok.1.syndromeNd, List.length_cons] at this
    exact this
  refine ⟨S, ?_, ?_⟩
  · unfold longTrails
    simp only [Finset.mem_biUnion, Finset.mem_filter, Finset.mem_singleton, Finset.mem_Ico]
    exact ⟨L.length, ⟨by omega, by omega⟩, x :: L, ⟨mem_trails k1 k2 k3 k4, k2, hSsub⟩, rfl⟩
  · set M := scale o with hM
    have hM1 : 1 ≤ M := scale_one ho
    have hpt : ∀ y ∈ S, m * (Real.pi / 20 - 2 * d₀) + m * d₀ / (2 * M) * ((if y ∈ B then 1 else -1) * (W y : ℝ)) ≤
        cvOutcome code pts delta z y ^ 2 := by
      intro y hy
      have := outcome_weight (neighbors_length h (hSs y hy)) hm0 (hm y (hSs y hy)) ho.pos hM1 (hW2 y)
      have hiff : y ∈ B ↔ Gkp.gkpBinner (cvOutcome code pts delta z y) = 1 := by
        rw [hB, mem_cvFlips, and_iff_right (hSs y hy)]
      simpa only [hiff] using this
    refine le_trans ?_ (Finset.sum_le_sum hpt)
    rw [Finset.sum_add_distrib, Finset.sum_const, nsmul_eq_mul, ← Finset.mul_sum]
    have hbal : 0 ≤ ∑ y ∈ S, (if y ∈ B then 1 else -1) * (W y : ℝ) := by
      have hsplit : ∑ y ∈ S, (if y ∈ B then 1 else -1) * (W y : ℝ) = ∑ y ∈ S ∩ B, (W y : ℝ) - ∑ y ∈ S \ B, (W y : ℝ) := by
        rw [← Finset.sum_inter_add_sum_sdiff S B, sub_eq_add_neg, ← Finset.sum_neg_distrib]
        congr 1
        · exact Finset.sum_congr rfl fun y hy => by rw [if_pos (Finset.mem_inter.1 hy).2, one_mul]
        · exact Finset.sum_congr rfl fun y hy => by rw [if_neg (Finset.mem_sdiff.1 hy).2, neg_one_mul]
      rw [hsplit, sub_nonneg]
      exact_mod_cast k6
    have : 0 ≤ m * d₀ / (2 * M) := div_nonneg (mul_nonneg hm0 ho.pos.le) (by linarith)
    nlinarith [mul_nonneg this hbal]

/-- Specification: bound on the rate of outcomes whose mean square on a trail is at least `κ`. -/
noncomputable def analogRate (delta κ : ℝ) : ℝ := 4 * √2 * Real.exp (-κ / (34 * delta))

/-- Outcomes are rarely large on average. -/
theorem outcomes_large {code : Code} (h : IsCode code) (hw : ∀ x y w, PyDict.get? code.graph.edges s(x, y) = some w → w.1 = 1 ∨ w.1 = -1)
    {pts : List V} (hp : pts.Perm (PyDict.keys code.graph.nodes)) {delta κ : ℝ} (hd : 0 < delta) {S : Finset V}
    (hS : ∀ x ∈ S, x ∈ code.syndrome) :
    (Measure.infinitePi fun _ : ℕ => gaussianReal 0 1).real {z | S.card * κ ≤ ∑ x ∈ S, cvOutcome code pts delta z x ^ 2} ≤
      analogRate delta κ ^ S.card := by
  have := mix_le_sum h hw hp (κ := κ) (η := 0) (s := 0) hd ∅ (Finset.range pts.length) (U := ∅) le_rfl (Finset.empty_subset _) hS
  rw [Finset.card_empty, pow_zero, mul_one] at this
  refine le_trans (measureReal_mono ?_) this
  intro z hz
  refine ⟨le_trans hz ?_, fun i hi => absurd hi (Finset.notMem_empty i)⟩
  refine (le_of_eq (Finset.sum_congr rfl fun x hx => ?_))
  rw [cvOutcome_rest (hp.mem_iff.2 (h.syndrome_node (hS x hx)))]

/-- C101.  The failure probability of MWPM with weights computed from the outcomes of a `CVLayer` without swap-outs decreases exponentially with
the size of the code if the noise is weak.  The noise parameter given to the decoder may differ from the one of the layer. -/
theorem C101_bound {code : Code} (h : IsCode code) (hw : ∀ x y w, PyDict.get? code.graph.edges s(x, y) = some w → w.1 = 1 ∨ w.1 = -1)
    (X : Libs) {o : Opts} {d₀ : ℝ} (ho : AnalogOpts X o d₀) {pts : List V} (hpts : pts.Perm (PyDict.keys code.graph.nodes)) {delta : ℝ}
    (hd : 0 < delta) {m : ℝ} (hm0 : 0 ≤ m) (hm : ∀ x ∈ code.syndrome, m ≤ (neighbors code x).length + 1)
    (hd3 : ∀ i, boundsOf code.ec code.boundaries i = .periodic → 3 ≤ code.dims i) {d : ℕ}
    (hdim : ∀ i ∈ planesToCheck code.ec code.boundaries, d ≤ code.dims i) {q : ℝ} (hq : analogRate delta (m * (Real.pi / 20 - 2 * d₀)) ≤ q)
    (hq1 : 5 * q < 1) :
    analogFailure X code pts delta o ≤ 2 * code.syndrome.length / 5 * ((5 * q) ^ d / (1 - 5 * q)) := by
  have hr0 : 0 ≤ analogRate delta (m * (Real.pi / 20 - 2 * d₀)) := by unfold analogRate; positivity
  refine le_trans ?_ (longTrails_sum h (hr0.trans hq) hq1 d)
  have hsub : {z | Fails X code "MWPM" o (outcomeAttrs code pts delta z) (cvFlips code pts delta z)} ⊆
      ⋃ S ∈ longTrails code d, {z | S.card * (m * (Real.pi / 20 - 2 * d₀)) ≤ ∑ x ∈ S, cvOutcome code pts delta z x ^ 2} := by
    intro z hz
    obtain ⟨S, hS, hle⟩ := analog_trail h X ho hd3 hm0 hm hdim hz
    exact Set.mem_iUnion₂.2 ⟨S, hS, hle⟩
  have h1 := (measureReal_mono (μ := Measure.infinitePi fun _ : ℕ => gaussianReal 0 1) hsub (measure_ne_top _ _)).trans (measureReal_biUnion_finset_le _ _)
  unfold analogFailure
  refine h1.trans (Finset.sum_le_sum fun S hS => ?_)
  refine le_trans ?_ (pow_le_pow_left₀ hr0 hq _)
  exact outcomes_large h hw hpts hd fun x hx => List.mem_toFinset.1 (longTrails_subset S hS hx)

theorem analogRate_limit {κ c : ℝ} (hκ : 0 < κ) (hc : 0 < c) : ∃ δ₀, 0 < δ₀ ∧ ∀ delta, 0 < delta → delta < δ₀ → analogRate delta κ < c := by
  refine ⟨κ / (34 * (8 / c)), by positivity, fun delta hd hlt => ?_⟩
  unfold analogRate
  have h2 : √2 ≤ 2 := Real.sqrt_le_iff.2 ⟨by norm_num, by norm_num⟩
  have hx : 8 / c < κ / (34 * delta) := by
    rw [lt_div_iff₀ (by positivity)] at hlt ⊢
    linarith
  have he : Real.exp (-κ / (34 * delta)) * (8 / c) < 1 := by
    have h1 := Real.add_one_le_exp (κ / (34 * delta))
    have h3 : Real.exp (-κ / (34 * delta)) * Real.exp (κ / (34 * delta)) = 1 := by
      rw [← Real.exp_add]; simp [neg_div]
    have hp := Real.exp_pos (-κ / (34 * delta))
    nlinarith
  have hp := Real.exp_pos (-κ / (34 * delta))
  have : Real.exp (-κ / (34 * delta)) * 8 < c := by
    rw [mul_div_assoc', div_lt_one hc] at he
    exact he
  nlinarith

theorem analogRate_anti {delta κ κ' : ℝ} (hd : 0 < delta) (h : κ ≤ κ') : analogRate delta κ' ≤ analogRate delta κ := by
  unfold analogRate
  gcongr

/-- C101.  Threshold of MWPM with weights from the outcomes: for every `c` below π/40 there is a noise level of the layer, which depends
neither on the code nor on the multiplier, below which large codes fail with a probability as small as desired, for all noise parameters of
the decoder up to `c`. -/
theorem C101_threshold {c : ℝ} (h1 : c < Real.pi / 40) : ∃ δ₀, 0 < δ₀ ∧ ∀ delta, 0 < delta → delta < δ₀ →
    ∀ (m : ℕ) {ε : ℝ}, 0 < ε → ∃ d' : ℕ, ∀ d, d' ≤ d →
    ∀ code : Code, IsCode code → (∀ x y w, PyDict.get? code.graph.edges s(x, y) = some w → w.1 = 1 ∨ w.1 = -1) →
    (∀ i, d ≤ code.dims i ∧ code.dims i ≤ m * d) → ∀ (X : Libs) (o : Opts) (d₀ : ℝ) (pts : List V), AnalogOpts X o d₀ → d₀ ≤ c →
      pts.Perm (PyDict.keys code.graph.nodes) → analogFailure X code pts delta o < ε := by
  obtain ⟨δ₀, hδ, hlt⟩ := analogRate_limit (κ := Real.pi / 20 - 2 * c) (c := 1 / 5) (by linarith) (by norm_num)
  refine ⟨δ₀, hδ, fun delta hd hdd m ε hε => ?_⟩
  have hr := hlt delta hd hdd
  set q := analogRate delta (Real.pi / 20 - 2 * c) with hq
  have hr0 : 0 ≤ q := by rw [hq]; unfold analogRate; positivity
  obtain ⟨d', hd'⟩ := rate_limit (r := q / 2) (by linarith) (by linarith) m hε
  refine ⟨max d' 3, fun d hdd' code h hw hdims X o d₀ pts ho hc hpts => ?_⟩
  have h3 := periodic_three (code := code) (le_of_max_le_right hdd') fun i _ => (hdims i).1
  refine (C101_bound h hw X ho hpts hd zero_le_one (fun x _ => by linarith [Nat.cast_nonneg (α := ℝ) (neighbors code x).length]) h3
    (fun i _ => (hdims i).1) (q := q) (analogRate_anti hd (by linarith)) (by linarith)).trans_lt ?_
  have := hd' d (le_of_max_le_left hdd') code h hdims
  rwa [show 10 * (q / 2) = 5 * q by ring] at this

/-! ### Simulations -/

theorem measurable_zErrCond (var : ℝ) : Measurable fun x => Gkp.zErrCond var x := by
  have hf : Measurable fun x => (Gkp.gkpBinnerFrac x).2 := Gkp.measurable_binnerFrac.snd
  unfold Gkp.zErrCond
  simp only [Bool.false_eq_true, if_false, Gkp.num_eq, Gkp.den_eq]
  have hex : ∀ k : ℤ, Measurable fun x => Gkp.exVal (Gkp.gkpBinnerFrac x).2 var k := fun k => by
    unfold Gkp.exVal
    exact Real.measurable_exp.comp ((((hf.sub_const _).pow_const 2).neg).div_const _)
  have hn : Measurable fun x => ∑ i ∈ Finset.range (2 * 10), Gkp.exVal (Gkp.gkpBinnerFrac x).2 var ((1 - 2 * ((10 : ℕ) : ℤ)) + 2 * i) :=
    Finset.measurable_fun_sum _ fun i _ => hex _
  have hd : Measurable fun x => ∑ i ∈ Finset.range (2 * 10), Gkp.exVal (Gkp.gkpBinnerFrac x).2 var (-((10 : ℕ) : ℤ) + i) :=
    Finset.measurable_fun_sum _ fun i _ => hex _
  exact Measurable.ite (measurableSet_eq_fun hd measurable_const).compl (hn.div hd) measurable_const

theorem measurable_pyRound : Measurable Weights.pyRound := by
  have hfl : Measurable fun x : ℝ => ⌊x⌋ := Int.measurable_floor
  have hfr : Measurable fun x : ℝ => x - (⌊x⌋ : ℝ) := measurable_id.sub ((measurable_of_countable fun n : ℤ => (n : ℝ)).comp hfl)
  unfold Weights.pyRound
  refine Measurable.ite (measurableSet_lt hfr measurable_const) hfl (Measurable.ite (measurableSet_lt measurable_const hfr)
    ((measurable_of_countable fun n : ℤ => n + 1).comp hfl) ?_)
  exact (measurable_of_countable fun n : ℤ => if n % 2 = 0 then n else n + 1).comp hfl

theorem measurable_clip : Measurable clip := by
  unfold clip
  have hm : Measurable fun p : ℝ => min p 0.5 := measurable_id.min measurable_const
  exact Measurable.ite (measurableSet_eq_fun hm measurable_const) measurable_const hm

theorem measurable_outcome (code : Code) (pts : List V) (delta : ℝ) (x : V) : Measurable fun z : ℕ → ℝ => cvOutcome code pts delta z x := by
  unfold cvOutcome
  fun_prop

theorem measurable_weight (X : Libs) (code : Code) {o : Opts} (ho : o.integer = true ∨ Measurable X.float.fl) (d₀ : ℝ) (pts : List V) (delta : ℝ) (x : V) :
    Measurable fun z : ℕ → ℝ => analogWeight X code o d₀ (cvOutcome code pts delta z) x := by
  have hm : Measurable fun z : ℕ → ℝ => clip (Gkp.zErrCond (((neighbors code x).length + 1) * d₀) (cvOutcome code pts delta z x)) :=
    measurable_clip.comp ((measurable_zErrCond _).comp (measurable_outcome code pts delta x))
  unfold analogWeight toWeight
  by_cases hi : o.integer = true
  · simp only [hi, if_true, X.float.int]
    exact (measurable_of_countable fun n : ℤ => (n : ℚ)).comp (measurable_pyRound.comp (measurable_const.mul (Real.measurable_log.comp hm)))
  · simp only [hi, if_false]
    exact (ho.resolve_left hi).comp (Real.measurable_log.comp hm).neg

theorem measurable_analog {code : Code} (h : IsCode code) (X : Libs) {o : Opts} {d₀ : ℝ} (ho : AnalogOpts X o d₀)
    (hmeas : o.integer = true ∨ Measurable X.float.fl) (pts : List V) (delta : ℝ) :
    MeasurableSet {z : ℕ → ℝ | Fails X code "MWPM" o (outcomeAttrs code pts delta z) (cvFlips code pts delta z)} := by
  classical
  set P : (V → ℚ) → Finset V → Prop := fun W B => ∃ r, correct code (mwpmDecoder X.bk X.paths X.matching (stabGraph X.bk X.sp code) W)
    false (fun x => decide (x ∈ B)) = some r ∧ r.2 = false with hP
  have hcongr : ∀ W W' B, (∀ x ∈ code.syndrome, W x = W' x) → P W B → P W' B := by
    intro W W' B hW
    have : ∀ c, mwpmDecoder X.bk X.paths X.matching (stabGraph X.bk X.sp code) W c =
        mwpmDecoder X.bk X.paths X.matching (stabGraph X.bk X.sp code) W' c := by
      intro c
      unfold mwpmDecoder matchGraph
      rw [weightedEdges_congr h X.bk X.sp hW]
    rintro ⟨r, h1, h2⟩
    exact ⟨r, by rw [← h1]; exact correct_congr (this _).symm, h2⟩
  set ext : (code.syndrome.toFinset → ℚ) → V → ℚ := fun g x => if hx : x ∈ code.syndrome.toFinset then g ⟨x, hx⟩ else 0 with hext
  have hset : {z : ℕ → ℝ | Fails X code "MWPM" o (outcomeAttrs code pts delta z) (cvFlips code pts delta z)} =
      ⋃ B : {B : Finset V // B ⊆ code.syndrome.toFinset}, ⋃ g : {g : code.syndrome.toFinset → ℚ // P (ext g) B.1},
        {z | cvFlips code pts delta z = B.1} ∩ ⋂ x : code.syndrome.toFinset, {z | analogWeight X code o d₀ (cvOutcome code pts delta z) x = g.1 x} := by
    ext z
    simp only [Set.mem_iUnion, Set.mem_inter_iff, Set.mem_iInter, Set.mem_ofPred_eq]
    rw [(fails_analog_iff h X ho).1]
    constructor
    · intro hp
      refine ⟨⟨cvFlips code pts delta z, Finset.filter_subset _ _⟩, ⟨fun x => analogWeight X code o d₀ (cvOutcome code pts delta z) x, ?_⟩, rfl,
        fun x => rfl⟩
      refine hcongr _ _ _ (fun x hx => ?_) hp
      rw [hext]
      simp only [List.mem_toFinset.2 hx, dif_pos]
    · rintro ⟨⟨B, hB⟩, ⟨g, hg⟩, h1, h2⟩
      simp only at h1 h2
      rw [h1]
      refine hcongr _ _ _ (fun x hx => ?_) hg
      rw [h2 ⟨x, List.mem_toFinset.2 hx⟩, hext]
      simp only [List.mem_toFinset.2 hx, dif_pos]
  have : Countable {B : Finset V // B ⊆ code.syndrome.toFinset} := by
    have : Finite {B : Finset V // B ⊆ code.syndrome.toFinset} :=
      Finite.of_injective (β := code.syndrome.toFinset.powerset) (fun B => ⟨B.1, Finset.mem_powerset.2 B.2⟩) fun B B' e => by
        simpa [Subtype.ext_iff] using e
    infer_instance
  rw [hset]
  refine MeasurableSet.iUnion fun B => MeasurableSet.iUnion fun g => (measurable_cvFlips code pts delta fun S => S = B.1).inter
    (MeasurableSet.iInter fun x => ?_)
  exact measurable_weight X code hmeas d₀ pts delta x (measurableSet_singleton _)

variable {Ω : Type*} [MeasurableSpace Ω] {μ : Measure Ω} [IsProbabilityMeasure μ]

/-- C101.  The mean number of errors of a simulation with weights from the outcomes, in the initial sampling order: the failure probability times
the number of trials that are the first, third, ... of their process. -/
theorem C101_mean {code : Code} (h : IsCode code) (X : Libs) {pts : List V} {delta : ℝ} {L₀ : Noise.Layer V}
    (hL : Noise.OnCode code pts delta none .initial none L₀) (hd : 0 < delta) {o : Opts} {d₀ : ℝ} (ho : AnalogOpts X o d₀)
    (hmeas : o.integer = true ∨ Measurable X.float.fl) (trials : ℕ) {size : ℕ} (hs : 0 < size) {Z : ℕ × ℕ × ℕ → Ω → ℝ}
    (hZ : Noise.NormalIid Z μ) (draw : ℕ → ℕ → List ℕ) (hr : ∀ r k, ∀ i ∈ draw r k, i < pts.length) (u : ℕ → ℕ → ℕ → ℝ)
    (b : ℕ → ℕ → ℕ → ℤ) (errors : Ω → ℤ)
    (he : ∀ ω, ∃ err, monteCarlo (ecTrial X code "MWPM" o (cvModel code pts)) trials size
      (fun r => ((L₀, fun k => (draw r k, ⟨fun i => Z (r, k, i) ω, u r k, b r k⟩)), fun _ => none)) = some err ∧ errors ω = err 0) :
    ∫ ω, (errors ω : ℝ) ∂μ =
      ((List.range trials).countP fun i => decide (i / size % 2 = 0) : ℕ) * analogFailure X code pts delta o := by
  classical
  have hv : CvOptions "MWPM" o := Or.inr ⟨ho.method, rfl, ho.computed, ⟨d₀, ho.delta, ho.pos⟩, ho.multiplier⟩
  set T := (Finset.range trials).filter fun i => i / size % 2 = 0 with hT
  set E : ℕ → Set Ω := fun t => {ω | Fails X code "MWPM" o (outcomeAttrs code pts delta fun i => Z (t % size, t / size, i) ω)
    (cvFlips code pts delta fun i => Z (t % size, t / size, i) ω)} with hE
  have hE1 : ∀ t, MeasurableSet (E t) ∧ μ.real (E t) = analogFailure X code pts delta o := by
    intro t
    have hc : Noise.NormalIid (fun i => Z (t % size, t / size, i)) μ := hZ.comp (g := fun i => (t % size, t / size, i))
      (fun i j e => by simpa using e)
    have hm : Measurable fun ω (i : ℕ) => Z (t % size, t / size, i) ω := measurable_pi_lambda _ hc.meas
    have hA := measurable_analog h X ho hmeas pts delta
    have hlaw := hc.indep.map_fun_eq_infinitePi_map hc.meas
    simp_rw [hc.normal] at hlaw
    refine ⟨hm hA, ?_⟩
    unfold analogFailure
    rw [← hlaw, measureReal_def, measureReal_def, Measure.map_apply hm hA]
    rfl
  have hsum : ∀ ω, (errors ω : ℝ) = ∑ t ∈ T, (E t).indicator (fun _ => (1 : ℝ)) ω := by
    intro ω
    obtain ⟨err, e1, e2⟩ := he ω
    obtain ⟨-, e3, -⟩ := C49_errors _ trials size hs _ err e1
    rw [e2, e3]
    have hcard : (List.range trials).countP (fun i => decide (outcome (ecTrial X code "MWPM" o (cvModel code pts)) (i / size)
        ((L₀, fun k => (draw (i % size) k, ⟨fun j => Z (i % size, k, j) ω, u (i % size) k, b (i % size) k⟩)), fun _ => none) =
          some false)) = (T.filter fun t => ω ∈ E t).card := by
      rw [List.countP_eq_length_filter, ← List.toFinset_card_of_nodup (List.nodup_range.filter _)]
      congr 1
      ext t
      simp only [hT, Finset.mem_filter, Finset.mem_range, List.mem_toFinset, List.mem_filter, List.mem_range, decide_eq_true_eq]
      rw [and_assoc]
      refine and_congr_right fun _ => ?_
      obtain ⟨ok, k1, k2, k3⟩ := cv_outcome_any h X hL hd hv (fun k => (draw (t % size) k, ⟨fun j => Z (t % size, k, j) ω, u (t % size) k,
        b (t % size) k⟩)) (hr _) (fun _ => none) (t / size)
      rw [k1]
      rcases Nat.even_or_odd (t / size) with hk | hk
      · rw [Option.some.injEq, (k3 hk).1]
        exact ⟨fun hf => ⟨Nat.even_iff.1 hk, hf⟩, fun hf => hf.2⟩
      · rw [k2 hk]
        have := Nat.odd_iff.1 hk
        simp [this]
    rw [hcard, Finset.card_filter]
    push_cast
    refine Finset.sum_congr rfl fun t _ => ?_
    rw [Set.indicator_apply]
  simp_rw [hsum]
  rw [integral_finsetSum]
  · simp_rw [integral_indicator_const (1 : ℝ) (hE1 _).1, (hE1 _).2]
    rw [Finset.sum_const, smul_eq_mul, mul_one, nsmul_eq_mul]
    congr 2
    rw [List.countP_eq_length_filter, ← List.toFinset_card_of_nodup (List.nodup_range.filter _)]
    congr 1
    ext t
    simp [hT]
  · intro t _
    exact (integrable_const (1 : ℝ)).indicator (hE1 t).1

/-- C101.  The mean number of errors of simulations of MWPM with weights from the outcomes. -/
theorem C101_simulation {c : ℝ} (h1 : c < Real.pi / 40) : ∃ δ₀, 0 < δ₀ ∧ ∀ delta, 0 < delta → delta < δ₀ → ∀ {ε : ℝ}, 0 < ε →
    ∃ d' : ℕ, ∀ d, d' ≤ d → ∀ code : Code, IsCode code →
    (∀ x y w, PyDict.get? code.graph.edges s(x, y) = some w → w.1 = 1 ∨ w.1 = -1) → (∀ i, code.dims i = d) →
    ∀ (X : Libs) (o : Opts) (d₀ : ℝ), AnalogOpts X o d₀ → d₀ ≤ c → (o.integer = true ∨ Measurable X.float.fl) →
    ∀ (pts : List V) (L₀ : Noise.Layer V), Noise.OnCode code pts delta none .initial none L₀ →
    ∀ {Ω : Type} [MeasurableSpace Ω] (μ : Measure Ω) (Z : ℕ × ℕ × ℕ → Ω → ℝ), Noise.NormalIid Z μ →
    ∀ (draw : ℕ → ℕ → List ℕ), (∀ r k, ∀ i ∈ draw r k, i < pts.length) →
    ∀ (u : ℕ → ℕ → ℕ → ℝ) (b : ℕ → ℕ → ℕ → ℤ) (trials size : ℕ), 0 < size → ∀ errors : Ω → ℤ,
    (∀ ω, ∃ err, monteCarlo (ecTrial X code "MWPM" o (cvModel code pts)) trials size
      (fun r => ((L₀, fun k => (draw r k, ⟨fun i => Z (r, k, i) ω, u r k, b r k⟩)), fun _ => none)) = some err ∧ errors ω = err 0) →
    ∫ ω, (errors ω : ℝ) ∂μ ≤ trials * ε := by
  obtain ⟨δ₀, hδ, hlt⟩ := C101_threshold h1
  refine ⟨δ₀, hδ, fun delta hd hdδ ε hε => ?_⟩
  obtain ⟨d', hd'⟩ := hlt delta hd hdδ 1 hε
  refine ⟨d', fun d hdd code h hw hdims X o d₀ ho hc hmeas pts L₀ hL Ω _ μ Z hZ draw hr u b trials size hs errors he => ?_⟩
  have : IsProbabilityMeasure μ := hZ.indep.isProbabilityMeasure
  rw [C101_mean h X hL hd ho hmeas trials hs hZ draw hr u b errors he]
  have hb := (hd' d hdd code h hw (fun i => by rw [hdims i, one_mul]; exact ⟨le_rfl, le_rfl⟩) X o d₀ pts ho hc hL.perm).le
  have h0 : 0 ≤ analogFailure X code pts delta o := measureReal_nonneg
  have hcnt : (((List.range trials).countP fun i => decide (i / size % 2 = 0) : ℕ) : ℝ) ≤ trials := by
    exact_mod_cast List.countP_le_length.trans (by rw [List.length_range])
  exact mul_le_mul hcnt hb h0 (Nat.cast_nonneg _)

/-! ### The hypotheses can be met -/

theorem analogOpts_default (X : Libs) : AnalogOpts X { method := "blueprint", integer := true, delta := some (1 / 100) } (1 / 100) :=
  ⟨rfl, rfl, rfl, by norm_num, Or.inl ⟨rfl, le_rfl⟩⟩

theorem analogRate_example : analogRate (1 / 10 ^ 4) (1 * (Real.pi / 20 - 2 * (1 / 100))) ≤ 1 / 50 := by
  unfold analogRate
  have h2 : √2 ≤ 2 := Real.sqrt_le_iff.2 ⟨by norm_num, by norm_num⟩
  have hpi := Real.pi_gt_three
  have hx : (6 : ℝ) ≤ (1 * (Real.pi / 20 - 2 * (1 / 100))) / (34 * (1 / 10 ^ 4)) := by
    rw [le_div_iff₀ (by norm_num)]
    linarith
  have h6 : (400 : ℝ) ≤ Real.exp 6 := by
    have h := Real.exp_one_gt_d9
    have e : Real.exp 6 = Real.exp 1 ^ 6 := by rw [← Real.exp_nat_mul]; norm_num
    rw [e]
    refine le_trans ?_ (pow_le_pow_left₀ (by norm_num) (show (2.72 - 0.002 : ℝ) ≤ Real.exp 1 by norm_num at h ⊢; linarith) 6)
    norm_num
  have he : Real.exp (-(1 * (Real.pi / 20 - 2 * (1 / 100))) / (34 * (1 / 10 ^ 4))) ≤ 1 / 400 := by
    rw [neg_div, Real.exp_neg, inv_eq_one_div]
    exact one_div_le_one_div_of_le (by norm_num) (h6.trans (Real.exp_le_exp.2 hx))
  have := Real.exp_pos (-(1 * (Real.pi / 20 - 2 * (1 / 100))) / (34 * (1 / 10 ^ 4)))
  nlinarith

-- a toric code of size ten
example (X : Libs) : ∃ (code : Code) (pts : List V), IsCode code ∧ code.boundaries = .toric ∧ code.dims = (fun _ => 10) ∧
    analogFailure X code pts (1 / 10 ^ 4) { method := "blueprint", integer := true, delta := some (1 / 100) } ≤
      2 * code.syndrome.length / 5 * ((1 / 10) ^ 10 / (9 / 10)) := by
  obtain ⟨code, hc⟩ := C54_constructor_total idOrder .primal .toric (dims := fun _ => 10) (by simp) none
  obtain ⟨hc, hd, hec, hb⟩ := hc
  have h : IsCode code := ⟨idOrder, .primal, .toric, _, none, by simp, hc⟩
  refine ⟨code, PyDict.keys code.graph.nodes, h, hb, hd, ?_⟩
  have := C101_bound h (Noise.pm_weights (by simp) hc fun _ _ => Or.inl rfl) X (analogOpts_default X) (List.Perm.refl _) (delta := 1 / 10 ^ 4) (by norm_num) zero_le_one
    (fun x _ => by linarith [Nat.cast_nonneg (α := ℝ) (neighbors code x).length]) (fun i _ => by simp [hd]) (d := 10) (fun i _ => by simp [hd])
    analogRate_example (by norm_num)
  refine this.trans (le_of_eq ?_)
  norm_num

-- float weights with NetworkX, for a library that rounds to multiples of 2^-52
example : ∃ X : Libs, Measurable X.float.fl ∧ AnalogOpts X { method := "blueprint", delta := some (1 / 100) } (1 / 100) := by
  obtain ⟨X, hX⟩ := libs_exist .networkx
  have hfl : ∀ x : ℝ, |(((⌊x * 2 ^ 52⌋ : ℚ) / 2 ^ 52 : ℚ) : ℝ) - x| ≤ 1 := by
    intro x
    have h1 := Int.floor_le (x * 2 ^ 52)
    have h2 := Int.lt_floor_add_one (x * 2 ^ 52)
    push_cast
    generalize (⌊x * 2 ^ 52⌋ : ℝ) = k at *
    rw [abs_le]
    constructor <;> norm_num at * <;> linarith
  refine ⟨{ X with float := ⟨fun x => (⌊x * 2 ^ 52⌋ : ℚ) / 2 ^ 52, ?_, ?_⟩ }, ?_, rfl, rfl, rfl, by norm_num, Or.inr ⟨rfl, hX, fun x _ _ => hfl x⟩⟩
  · intro x hx
    have : 0 ≤ ⌊x * 2 ^ 52⌋ := Int.floor_nonneg.2 (by positivity)
    positivity
  · intro n
    have : (n : ℝ) * 2 ^ 52 = ((n * 2 ^ 52 : ℤ) : ℝ) := by push_cast; norm_num
    rw [this, Int.floor_intCast]
    push_cast
    norm_num
  · exact (measurable_of_countable fun n : ℤ => (n : ℚ) / 2 ^ 52).comp (Int.measurable_floor.comp (measurable_id.mul_const _))

-- codes of every large size with alternating polarity, the decoder is given the noise of the layer
example (X : Libs) : ∃ delta : ℝ, 0 < delta ∧ ∃ d₀ : ℕ, ∀ d, d₀ ≤ d → ∃ (code : Code) (pts : List V), IsCode code ∧ code.dims = (fun _ => d) ∧
    analogFailure X code pts delta { method := "blueprint", integer := true, multiplier := 1000, delta := some delta } < 1 / 100 := by
  have hpi := Real.pi_gt_three
  obtain ⟨δ₀, hδ, hlt⟩ := C101_threshold (c := 1 / 20) (by linarith)
  have h0 : 0 < min (δ₀ / 2) (1 / 20) := lt_min (by linarith) (by norm_num)
  obtain ⟨d₀, hd₀⟩ := hlt (min (δ₀ / 2) (1 / 20)) h0 ((min_le_left _ _).trans_lt (by linarith)) 1 (ε := 1 / 100) (by norm_num)
  refine ⟨min (δ₀ / 2) (1 / 20), h0, max d₀ 2, fun d hd => ?_⟩
  have h2 : ∀ _ : Fin 3, 2 ≤ d := fun _ => le_of_max_le_right hd
  obtain ⟨code, hc, hdim, hec, hb⟩ := C54_constructor_total idOrder .primal .open (dims := fun _ => d) h2 (some alternatingPolarity)
  have h : IsCode code := ⟨idOrder, _, _, _, _, h2, hc⟩
  have hpm := Noise.pm_weights h2 hc fun u v => by
    simp only [weightOf, alternatingPolarity]
    split_ifs
    · exact neg_one_pow_eq_or ℤ _
    · exact neg_one_pow_eq_or ℤ _
    · exact neg_one_pow_eq_or ℤ _
    · exact Or.inl rfl
  exact ⟨code, PyDict.keys code.graph.nodes, h, hdim, hd₀ d (le_of_max_le_left hd) code h hpm (by simp [hdim]) X _ _ _
    ⟨rfl, rfl, rfl, h0, Or.inl ⟨rfl, by norm_num⟩⟩ (min_le_right _ _) (List.Perm.refl _)⟩

end Flamingpy.Trial
